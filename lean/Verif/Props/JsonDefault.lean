import Verif.Spec.JsonDefault

/-! C250, C251: the contents of the log files of `JsonLog`. -/

namespace Verif.Log
open Verif.Hilbert (Err)

/-! ### Serialisation of one time series -/

theorem dumpList_map {α : Type} (f : Obj → Except Err J) (g : α → Obj) (s : α → J) :
    ∀ xs : List α, (∀ x ∈ xs, f (g x) = .ok (s x)) → dumpList f (xs.map g) = .ok (xs.map s)
  | [], _ => rfl
  | x :: r, h => by
    simp [dumpList, h x (by simp), dumpList_map f g s r (fun y hy => h y (by simp [hy]))]

theorem dumpDict_map {α : Type} (f : Obj → Except Err J) (k : α → String) (g : α → Obj) (s : α → J) :
    ∀ xs : List α, (∀ x ∈ xs, f (g x) = .ok (s x)) →
      dumpDict f (xs.map fun x => (k x, g x)) = .ok (xs.map fun x => (k x, s x))
  | [], _ => rfl
  | x :: r, h => by
    simp [dumpDict, h x (by simp), dumpDict_map f k g s r (fun y hy => h y (by simp [hy]))]

theorem dumps_flt (n : Nat) (x : Flt) : dumps (n + 1) (.flt x) = .ok (fltJ x) := by
  cases x <;> rfl

theorem dumps_num (n : Nat) (x : Num) (h : x.Small) : dumps (n + 1) x.toObj = .ok (numJ x) := by
  cases x with
  | bool b => rfl
  | int i =>
    have h' : -9223372036854775808 ≤ i ∧ i < 18446744073709551616 := h
    simp only [Num.toObj, dumps, numJ]
    rw [if_pos h']
  | flt x => exact dumps_flt n x

theorem dumps_real (n m : Nat) (xs : List Num) (h : ∀ x ∈ xs, x.Small) :
    dumps (n + 3) (.arr (.real [m] xs)) = .ok (.arr (xs.map numJ)) := by
  have : dumps (n + 3) (.arr (.real [m] xs)) = (dumpList (dumps (n + 1)) (xs.map Num.toObj)).map J.arr := rfl
  rw [this, dumpList_map _ _ numJ xs fun x hx => dumps_num n x (h x hx)]
  rfl

theorem dumps_series (n : Nat) (s : Series) (h : s.Small) : dumps (n + 5) (.arr s.toArr) = .ok s.shown := by
  cases s with
  | real xs => exact dumps_real (n + 2) _ xs h
  | cplx zs =>
    have e : dumps (n + 5) (.arr (Series.toArr (.cplx zs))) =
        (dumpDict (dumps (n + 3)) [("real", .arr (.real [zs.length] (zs.map fun z => .flt z.1))),
          ("imag", .arr (.real [zs.length] (zs.map fun z => .flt z.2)))]).map J.obj := rfl
    rw [e]
    simp only [dumpDict]
    rw [dumps_real n _ _ (by intro x hx; obtain ⟨z, _, rfl⟩ := List.mem_map.1 hx; trivial),
      dumps_real n _ _ (by intro x hx; obtain ⟨z, _, rfl⟩ := List.mem_map.1 hx; trivial)]
    simp [Series.shown, Except.map, Function.comp_def, numJ]

theorem dumps_history (n : Nat) (h : Cols) (hs : ∀ c ∈ h, c.2.Small) :
    dumps (n + 7) h.toObj = .ok h.shown := by
  have e : dumps (n + 7) h.toObj =
      (dumpDict (dumps (n + 5)) (h.map fun c => (c.1, .arr c.2.toArr))).map J.obj := rfl
  rw [e, dumpDict_map _ (fun c : String × Series => c.1) (fun c => .arr c.2.toArr) (fun c => c.2.shown) h
    fun c hc => dumps_series n c.2 (hs c hc)]
  rfl

theorem dumpList_get (f : Obj → Except Err J) : ∀ (xs : List Obj) (js : List J), xs.length = js.length →
    (∀ (i : Nat) (h : i < xs.length) (h' : i < js.length), f xs[i] = .ok js[i]) → dumpList f xs = .ok js
  | [], [], _, _ => rfl
  | [], _ :: _, h, _ => by simp at h
  | _ :: _, [], h, _ => by simp at h
  | x :: r, j :: s, h, hf => by
    have h0 : f x = .ok j := hf 0 (by simp) (by simp)
    have hr : dumpList f r = .ok s := dumpList_get f r s (by simpa using h) fun i h1 h2 =>
      hf (i + 1) (by simpa using h1) (by simpa using h2)
    simp [dumpList, h0, hr]

theorem dumpDict_get (f : Obj → Except Err J) : ∀ (xs : List (String × Obj)) (js : List (String × J)),
    xs.length = js.length →
    (∀ (i : Nat) (h : i < xs.length) (h' : i < js.length), xs[i].1 = js[i].1 ∧ f xs[i].2 = .ok js[i].2) →
    dumpDict f xs = .ok js
  | [], [], _, _ => rfl
  | [], _ :: _, h, _ => by simp at h
  | _ :: _, [], h, _ => by simp at h
  | (k, x) :: r, (l, j) :: s, h, hf => by
    have h0 : k = l ∧ f x = .ok j := hf 0 (by simp) (by simp)
    have hr : dumpDict f r = .ok s := dumpDict_get f r s (by simpa using h) fun i h1 h2 =>
      hf (i + 1) (by simpa using h1) (by simpa using h2)
    simp [dumpDict, h0.1, h0.2, hr]

/-! ### The theorems -/

/-- **C250**: logged data are written in full: histories of time series, in any nesting of lists and dictionaries
    that orjson can serialise, appear with the same structure and names; real series as the list of their entries,
    complex ones as two such lists, called real and imag. -/
theorem C250_contents (n : Nat) (o : Obj) (j : J) (h : Shows n o j) (limit : Nat) (hl : n + 7 ≤ limit) :
    dumps limit o = .ok j := by
  induction h generalizing limit with
  | hist n h hs =>
    obtain ⟨m, rfl⟩ : ∃ m, limit = m + 7 := ⟨limit - 7, by omega⟩
    exact dumps_history m h hs
  | list n xs js hlen _ ih =>
    obtain ⟨m, rfl⟩ : ∃ m, limit = m + 1 := ⟨limit - 1, by omega⟩
    have : dumps (m + 1) (.list xs) = (dumpList (dumps m) xs).map J.arr := rfl
    rw [this, dumpList_get _ xs js hlen fun i h1 h2 => ih i h1 h2 m (by omega)]
    rfl
  | dict n xs js hlen hk _ ih =>
    obtain ⟨m, rfl⟩ : ∃ m, limit = m + 1 := ⟨limit - 1, by omega⟩
    have : dumps (m + 1) (.dict xs) = (dumpDict (dumps m) xs).map J.obj := rfl
    rw [this, dumpDict_get _ xs js hlen fun i h1 h2 => ⟨hk i h1 h2, ih i h1 h2 m (by omega)⟩]
    rfl
  | none n =>
    obtain ⟨m, rfl⟩ : ∃ m, limit = m + 1 := ⟨limit - 1, by omega⟩
    rfl

theorem fltJ_inj {x y : Flt} (hx : x.Finite) (hy : y.Finite) (h : fltJ x = fltJ y) : x = y := by
  cases x <;> cases y <;> simp_all [Flt.Finite, fltJ]

theorem numJ_inj {x y : Num} (hx : x.Finite) (hy : y.Finite) (h : numJ x = numJ y) : x = y := by
  rcases x with _ | _ | (_ | _ | _ | _) <;> rcases y with _ | _ | (_ | _ | _ | _) <;>
    simp_all [Num.Finite, Flt.Finite, fltJ, numJ]

theorem map_inj_of {α β : Type} {f : α → β} {P : α → Prop} (hf : ∀ x y, P x → P y → f x = f y → x = y) :
    ∀ {xs ys : List α}, (∀ x ∈ xs, P x) → (∀ y ∈ ys, P y) → xs.map f = ys.map f → xs = ys
  | [], [], _, _, _ => rfl
  | [], _ :: _, _, _, h => by simp at h
  | _ :: _, [], _, _, h => by simp at h
  | x :: xs, y :: ys, hx, hy, h => by
    simp only [List.map_cons, List.cons.injEq] at h
    rw [hf x y (hx x (by simp)) (hy y (by simp)) h.1,
      map_inj_of hf (fun a ha => hx a (by simp [ha])) (fun a ha => hy a (by simp [ha])) h.2]

theorem shown_inj (s t : Series) (hs : s.Finite) (ht : t.Finite) (h : s.shown = t.shown) : s = t := by
  cases s with
  | real xs => cases t with
    | real ys =>
      simp only [Series.shown, J.arr.injEq] at h
      rw [map_inj_of (fun x y hx hy => numJ_inj hx hy) hs ht h]
    | cplx ys => simp [Series.shown] at h
  | cplx xs => cases t with
    | real ys => simp [Series.shown] at h
    | cplx ys =>
      simp only [Series.shown, J.obj.injEq, List.cons.injEq, Prod.mk.injEq, J.arr.injEq, true_and, and_true] at h
      obtain ⟨h1, h2⟩ := h
      have hlen : xs.length = ys.length := by simpa using congrArg List.length h1
      congr 1
      apply List.ext_getElem hlen
      intro i hi hi'
      have a1 : fltJ xs[i].1 = fltJ ys[i].1 := by
        have := congrArg (fun l => l[i]?) h1
        simpa [hi, hi'] using this
      have a2 : fltJ xs[i].2 = fltJ ys[i].2 := by
        have := congrArg (fun l => l[i]?) h2
        simpa [hi, hi'] using this
      exact Prod.ext (fltJ_inj (hs _ (List.getElem_mem hi)).1 (ht _ (List.getElem_mem hi')).1 a1)
        (fltJ_inj (hs _ (List.getElem_mem hi)).2 (ht _ (List.getElem_mem hi')).2 a2)

/-- **C250**: nothing is lost: two logs (histories under their names, of finite numbers) with the same file are
    the same. -/
theorem C250_recover (limit limit' : Nat) (hl : 8 ≤ limit) (hl' : 8 ≤ limit') (a b : List (String × Cols))
    (ha : ∀ h ∈ a, ∀ c ∈ h.2, c.2.Small ∧ c.2.Finite) (hb : ∀ h ∈ b, ∀ c ∈ h.2, c.2.Small ∧ c.2.Finite)
    (h : dumps limit (.dict (a.map fun x => (x.1, x.2.toObj))) =
      dumps limit' (.dict (b.map fun x => (x.1, x.2.toObj)))) : a = b := by
  have key : ∀ (m : Nat) (_ : 8 ≤ m) (l : List (String × Cols)), (∀ h ∈ l, ∀ c ∈ h.2, c.2.Small ∧ c.2.Finite) →
      dumps m (.dict (l.map fun x => (x.1, x.2.toObj))) = .ok (.obj (l.map fun x => (x.1, x.2.shown))) := by
    intro m hm l hl
    obtain ⟨m, rfl⟩ : ∃ k, m = k + 8 := ⟨m - 8, by omega⟩
    have e : dumps (m + 8) (.dict (l.map fun x => (x.1, x.2.toObj))) =
        (dumpDict (dumps (m + 7)) (l.map fun x => (x.1, x.2.toObj))).map J.obj := rfl
    rw [e, dumpDict_map _ (fun c : String × Cols => c.1) (fun c => c.2.toObj) (fun c => c.2.shown) l
      fun c hc => dumps_history m c.2 fun d hd => (hl c hc d hd).1]
    rfl
  rw [key limit hl a ha, key limit' hl' b hb] at h
  simp only [Except.ok.injEq, J.obj.injEq] at h
  refine map_inj_of (P := fun x : String × Cols => ∀ c ∈ x.2, c.2.Finite) ?_
    (fun x hx c hc => (ha x hx c hc).2) (fun x hx c hc => (hb x hx c hc).2) h
  rintro ⟨k, x⟩ ⟨l, y⟩ hx hy hxy
  simp only [Prod.mk.injEq, Cols.shown, J.obj.injEq] at hxy
  obtain ⟨rfl, hxy⟩ := hxy
  have : x = y := by
    refine map_inj_of (P := fun c : String × Series => c.2.Finite) ?_ hx hy hxy
    rintro ⟨k, s⟩ ⟨l, t⟩ hs ht hst
    simp only [Prod.mk.injEq] at hst
    rw [hst.1, shown_inj s t hs ht hst.2]
  rw [this]

/-- **C250**: numbers outside of histories: complex numbers become a pair, arrays without dimensions a number. -/
theorem C250_numbers (n : Nat) (re im : Flt) (x : Num) (hx : x.Small) (a : Arr) :
    dumps (n + 3) (.cplx re im) = .ok (.obj [("real", fltJ re), ("imag", fltJ im)]) ∧
    dumps (n + 2) (.arr (.real [] [x])) = .ok (numJ x) ∧
    dumps (n + 1) (.device a) = dumps n (.arr a) := by
  refine ⟨?_, ?_, ?_⟩
  · have e : dumps (n + 3) (.cplx re im) =
        (dumpDict (dumps (n + 1)) [("real", .flt re), ("imag", .flt im)]).map J.obj := rfl
    rw [e]
    simp [dumpDict, dumps_flt, Except.map]
  · exact dumps_num n x hx
  · rfl

/-! ### What cannot be written -/

theorem dumpDict_error (f : Obj → Except Err J) (e : Err) (k : String) (x : Obj) (hx : f x = .error e) :
    ∀ (xs : List (String × Obj)), (∀ y ∈ xs, f y.2 = .error e ∨ ∃ j, f y.2 = .ok j) → (k, x) ∈ xs →
      dumpDict f xs = .error e
  | [], _, h => by simp at h
  | (l, y) :: r, hall, h => by
    rcases hall (l, y) (by simp) with h0 | ⟨j, h0⟩
    · simp only at h0
      simp [dumpDict, h0]
    · simp only at h0
      have hr : (k, x) ∈ r := by
        rcases List.mem_cons.1 h with h | h
        · cases h
          rw [hx] at h0
          cases h0
        · exact h
      simp [dumpDict, h0, dumpDict_error f e k x hx r (fun y hy => hall y (by simp [hy])) hr]

/-- **C251**, refuted: a history one of whose columns has entries which are arrays (two or more dimensions; real or
    complex) cannot be written: TypeError, whatever the other columns are … -/
theorem C251_arrays_refuted (n a b : Nat) (sh : List Nat) (xs : List Num) (zs : List (Flt × Flt)) (cplx : Bool)
    (k : String) (cols : List (String × Obj))
    (hk : (k, if cplx then .arr (.cplx (a :: b :: sh) zs) else .arr (.real (a :: b :: sh) xs)) ∈ cols)
    (hc : ∀ y ∈ cols, dumps (n + 5) y.2 = .error .typeError ∨ ∃ j, dumps (n + 5) y.2 = .ok j) :
    dumps (n + 7) (.history cols) = .error .typeError := by
  have hx : dumps (n + 5) (if cplx then .arr (.cplx (a :: b :: sh) zs) else .arr (.real (a :: b :: sh) xs)) =
      .error .typeError := by
    cases cplx <;> rfl
  have e : dumps (n + 7) (.history cols) = (dumpDict (dumps (n + 5)) cols).map J.obj := rfl
  rw [e, dumpDict_error _ _ k _ hx cols hc hk]
  rfl

/-- … and the file, which had been opened for writing, is left empty: what was written before is lost. -/
theorem C251_lost_refuted {β : Type} (limit : Nat) (text : J → List β) (l : JsonLog Obj β) (t0 t1 : Rat) (e : Err)
    (h : dumps limit l.data = .error e) :
    (flushLog (fun o => (dumps limit o).map text) l t0 t1).1.logFile = some [] ∧
    (flushLog (fun o => (dumps limit o).map text) l t0 t1).2 = some e := by
  simp [flushLog, h, Except.map]

/-- **C251**, refuted: NaN and the infinities are all written as null, so that logs with different values have the
    same file. -/
theorem C251_nan_refuted (limit : Nat) (k : String) (xs ys : List Flt) (hlen : xs.length = ys.length)
    (hx : ∀ x ∈ xs, ¬x.Finite) (hy : ∀ y ∈ ys, ¬y.Finite) :
    dumps (limit + 7) (Cols.toObj [(k, .real (xs.map .flt))]) = dumps (limit + 7) (Cols.toObj [(k, .real (ys.map .flt))]) := by
  have null : ∀ x : Flt, ¬x.Finite → fltJ x = .null := by
    intro x hx
    cases x <;> simp_all [Flt.Finite, fltJ]
  rw [dumps_history _ _ (by simp [Series.Small, Num.Small]), dumps_history _ _ (by simp [Series.Small, Num.Small])]
  simp only [Cols.shown, List.map_cons, List.map_nil, Series.shown, List.map_map, Except.ok.injEq, J.obj.injEq,
    List.cons.injEq, and_true, Prod.mk.injEq, true_and, J.arr.injEq]
  apply List.ext_getElem (by simpa using hlen)
  intro i h1 h2
  simp only [List.length_map] at h1 h2
  simp [Function.comp, numJ, null _ (hx _ (List.getElem_mem h1)), null _ (hy _ (List.getElem_mem h2))]

/-- **C251**, refuted: scalars of numpy (other than `np.complex128`, which is a python complex number) and integers of more than 64 bits are a TypeError. -/
theorem C251_scalars_refuted (n : Nat) (x : Num) (i : Int) (hi : 18446744073709551616 ≤ i ∨ i < -9223372036854775808) :
    dumps (n + 1) (.scalar x) = .error .typeError ∧ dumps (n + 1) (.int i) = .error .typeError := by
  refine ⟨rfl, ?_⟩
  simp only [dumps]
  rw [if_neg (by omega)]

/-! ### Examples -/

/-- a log of one energy with complex mean and one integer series, two iterations each -/
def exLog : List (String × Cols) :=
  [("Energy", [("iters", .real [.int 0, .int 1]), ("Mean", .cplx [(.fin 1, .fin (1/2)), (.fin 3, .fin 0)])])]

example : ∀ h ∈ exLog, ∀ c ∈ h.2, c.2.Small ∧ c.2.Finite := by
  intro h hh c hc
  simp only [exLog, List.mem_singleton] at hh
  subst hh
  simp only [List.mem_cons, List.not_mem_nil, or_false] at hc
  rcases hc with rfl | rfl <;> simp [Series.Small, Series.Finite, Num.Small, Num.Finite, Flt.Finite]

example : Shows 1 (.dict (exLog.map fun x => (x.1, x.2.toObj))) (.obj (exLog.map fun x => (x.1, x.2.shown))) := by
  refine .dict 0 _ _ (by simp) (by simp) ?_
  intro i h h'
  simp only [exLog, List.map_cons, List.map_nil, List.length_cons, List.length_nil, zero_add] at h
  obtain rfl : i = 0 := by omega
  refine .hist 0 _ ?_
  simp [Series.Small, Num.Small]

/-- two columns, one of them of shape (1, 2): the hypotheses of `C251_arrays_refuted` -/
example : ∀ y ∈ [("iters", Obj.arr (.real [1] [.int 0])), ("value", .arr (.real [1, 2] [.int 5, .int 6]))],
    dumps 5 y.2 = .error .typeError ∨ ∃ j, dumps 5 y.2 = .ok j := by
  simp only [List.mem_cons, List.not_mem_nil, or_false, forall_eq_or_imp, forall_eq]
  exact ⟨.inr ⟨_, dumps_real 2 1 [.int 0] (by simp [Num.Small])⟩, .inl rfl⟩

example : dumps 7 (.history [("iters", .arr (.real [1] [.int 0])), ("value", .arr (.real [1, 2] [.int 5, .int 6]))])
    = .error .typeError := rfl

end Verif.Log
