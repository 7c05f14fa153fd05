import Verif.Model.HistoryAttr
import Mathlib.Tactic.Common

/-! C200, C201: attributes, iteration and copies of `History`. -/

namespace Verif.Hist
open Verif.Hilbert (Err)

variable {D V : Type}

/-- the names that mean something else than a column. -/
def reserved : List String := methodNames ++ ["iters", "values"] ++ slotNames

theorem getattr_dict (limit : Nat) (h : History D V) : getattr (limit + 1) (some h) "_value_dict" = .ok (.slot "_value_dict") := by
  simp only [getattr, getattrStep]
  rw [if_neg (show "_value_dict" ∉ methodNames by decide), if_neg (show ¬ ("_value_dict" = "iters" ∨ "_value_dict" = "values") by decide)]
  rw [Option.elim_some, if_pos (show "_value_dict" ∈ slotNames by decide)]

theorem getattr_prop (limit : Nat) (h : History D V) (name : String) (hn : name = "iters" ∨ name = "values") :
    getattr (limit + 2) (some h) name = propertyAttr h name := by
  have hm : name ∉ methodNames := by rcases hn with rfl | rfl <;> decide
  rw [show getattr (limit + 2) (some h) name = getattrStep (getattr (limit + 1) (some h)) (some h) name from rfl]
  unfold getattrStep
  rw [if_neg hm, if_pos hn, getattr_dict]
  rfl

/-- C200: the attributes of a history: a column has its name as attribute, unless the name is one of the class or of the attributes of the object;
    other names are an AttributeError.  `hasattr`, `in` and the dictionary agree on such names. -/
theorem C200_attribute (h : History D V) (limit : Nat) (name : String) (hn : name ∉ reserved) :
    (∀ c, h.valueDict.lookup name = some c → getattr (limit + 2) (some h) name = .ok (.col c) ∧ h.contains name = true)
      ∧ (h.valueDict.lookup name = none → getattr (limit + 2) (some h) name = .attributeError ∧ h.contains name = false) := by
  simp only [reserved, List.mem_append, List.mem_cons, List.not_mem_nil, or_false, not_or] at hn
  obtain ⟨⟨h1, h2, h3⟩, h4⟩ := hn
  have hg : getattr (limit + 2) (some h) name = columnAttr h name := by
    rw [show getattr (limit + 2) (some h) name = getattrStep (getattr (limit + 1) (some h)) (some h) name from rfl]
    unfold getattrStep
    rw [if_neg h1, if_neg (by simp [h2, h3])]
    simp only [Option.elim_some]
    rw [if_neg h4, getattr_dict]
    rfl
  constructor
  · intro c hc
    rw [hg]
    exact ⟨by simp [columnAttr, hc], by simp [History.contains, hc]⟩
  · intro hc
    rw [hg]
    exact ⟨by simp [columnAttr, hc], by simp [History.contains, hc]⟩

/-- C200: `history.iters` and `history.values` are the time axis and the main column. -/
theorem C200_properties (h : History D V) (limit : Nat) (i c : Col D V) (m : String) (hi : h.valueDict.lookup "iters" = some i) (hm : h.valueName = some m)
    (hc : h.valueDict.lookup m = some c) :
    getattr (limit + 2) (some h) "iters" = .ok (.col i) ∧ getattr (limit + 2) (some h) "values" = .ok (.col c) := by
  rw [getattr_prop limit h _ (Or.inl rfl), getattr_prop limit h _ (Or.inr rfl)]
  simp [propertyAttr, dictGet, hi, hm, hc]

/-- C200: `get` returns the times and the values, and iterating gives them in pairs, one for each iteration. -/
theorem C200_iterate (h : History D V) (i c : Col D V) (m : String) (hi : h.valueDict.lookup "iters" = some i) (hm : h.valueName = some m)
    (hc : h.valueDict.lookup m = some c) (hli : i.rows.length = h.len) (hlc : c.rows.length = h.len) :
    h.get = .ok (i, c) ∧ ∃ l, h.toList = .ok l ∧ l.length = h.len ∧ l.map Prod.fst = i.rows ∧ l.map Prod.snd = c.rows := by
  have hg : h.get = .ok (i, c) := by simp [History.get, History.iters, History.values, hi, hm, hc]
  refine ⟨hg, i.rows.zip c.rows, by simp [History.toList, hg], ?_, ?_, ?_⟩
  · simp [hli, hlc]
  · exact List.map_fst_zip (by omega)
  · exact List.map_snd_zip (by omega)

/-- C200: `to_dict` has the time axis and every column. -/
theorem C200_to_dict (np : Numpy D V) (a : Arg D V) (it : Iters D V) (h : History D V) (hh : mkHistory np a it = .ok h) :
    (h.toDict.map Prod.fst) = "iters" :: h.keys ∧ ∀ name, name ∉ reserved → (∀ limit c, getattr (limit + 2) (some h) name = .ok (.col c) ↔ h.toDict.lookup name = some c) := by
  constructor
  · unfold mkHistory at hh
    split at hh
    · cases hh
    · split at hh
      · cases hh
      · cases hh
        rfl
  · intro name hn limit c
    obtain ⟨h1, h2⟩ := C200_attribute h limit name hn
    constructor
    · intro hg
      cases hl : h.valueDict.lookup name with
      | none => rw [(h2 hl).1] at hg; cases hg
      | some c' =>
        rw [(h1 c' hl).1] at hg
        have : c' = c := by injection hg with hg; injection hg
        rw [History.toDict, hl, this]
    · intro hl
      exact (h1 c hl).1

/-! ## C201 -/

/-- before `__init__`, every attribute that is not one of the class ends in a RecursionError, whatever the limit. -/
theorem getattr_none (limit : Nat) (name : String) (hn : name ∉ methodNames) : getattr limit (none : Option (History D V)) name = .recursionError := by
  induction limit generalizing name with
  | zero => rfl
  | succ limit ih =>
    have hv : getattr limit (none : Option (History D V)) "_value_dict" = .recursionError := ih _ (by decide)
    simp only [getattr, getattrStep]
    rw [if_neg hn]
    split_ifs <;> simp [hv, Res.andThen]

/-- C201: no history can be copied or unpickled, whatever recursion limit is set. -/
theorem C201_copy_refuted (limit : Nat) (h : History D V) : copyHistory limit h = .recursionError := by
  unfold copyHistory
  rw [getattr_none limit "__setstate__" (by decide)]

/-- C201: a history without a main value has no values: `get`, iteration and `np.asarray` are a KeyError. -/
theorem C201_no_main_refuted (h : History D V) (i : Col D V) (hi : h.valueDict.lookup "iters" = some i) (hm : h.valueName = none) :
    h.get = .error .keyError ∧ h.toList = .error .keyError ∧ ∀ limit, getattr (limit + 2) (some h) "values" = .keyError := by
  have hg : h.get = .error .keyError := by simp [History.get, History.iters, History.values, hi, hm]
  refine ⟨hg, by simp [History.toList, hg], fun limit => ?_⟩
  rw [getattr_prop limit h _ (Or.inr rfl)]
  simp [propertyAttr, dictGet, hm]

/-- C201: every history made of a dictionary without naming a main value is of that kind. -/
theorem C201_dict_refuted (np : Numpy D V) (fields : List (String × Fld D V)) (it : Iters D V) (h : History D V) (hh : mkHistory np (.dict fields) it = .ok h) :
    h.get = .error .keyError ∧ h.toList = .error .keyError := by
  unfold mkHistory at hh
  split at hh
  · cases hh
  · split at hh
    · cases hh
    · rename_i d xs _ _ cs _
      cases hh
      refine (fun t => ⟨t.1, t.2.1⟩) (C201_no_main_refuted _ (.arr d xs) ?_ ?_)
      · exact List.lookup_cons_self
      · rfl

/-- C201: a column with the name of a method is not an attribute: the method is found first, and the column only by `history["keys"]`. -/
theorem C201_method_name_refuted (h : History D V) (limit : Nat) (name : String) (hn : name ∈ methodNames) : getattr (limit + 1) (some h) name = .ok (.method name) := by
  simp only [getattr, getattrStep]
  rw [if_pos hn]

/-- C201: and a column `values` that is not the main one is hidden by the property. -/
theorem C201_values_refuted (h : History D V) (limit : Nat) (c c' : Col D V) (m : String) (hm : h.valueName = some m) (hc : h.valueDict.lookup m = some c)
    (hv : h.valueDict.lookup "values" = some c') (hne : c ≠ c') :
    h.contains "values" = true ∧ getattr (limit + 2) (some h) "values" ≠ .ok (.col c') := by
  refine ⟨by simp [History.contains, hv], ?_⟩
  rw [getattr_prop limit h _ (Or.inr rfl)]
  simp [propertyAttr, dictGet, hm, hc, hne]

/-- C201 (part that holds): columns with other names are attributes, see C200.  Missing: the names of the class, copies, and histories without main value. -/
theorem C201_attribute_partial (h : History D V) (limit : Nat) (name : String) (hn : name ∉ reserved) (c : Col D V) (hc : h.valueDict.lookup name = some c) :
    getattr (limit + 2) (some h) name = .ok (.col c) := ((C200_attribute h limit name hn).1 c hc).1

/-! ## Examples -/

/-- a history of energies with a column named like a method. -/
def exHist : History Unit Int := ⟨[("iters", .arr () [0, 1]), ("Mean", .arr () [5, 6]), ("keys", .arr () [7, 8]), ("values", .arr () [1, 1])], some "Mean", 2, false, ["Mean", "keys", "values"]⟩

/-- it meets the hypotheses of C200 and C201. -/
example : exHist.valueDict.lookup "iters" = some (.arr () [0, 1]) ∧ exHist.valueName = some "Mean" ∧ exHist.valueDict.lookup "Mean" = some (.arr () [5, 6])
    ∧ "Mean" ∉ reserved ∧ "Variance" ∉ reserved ∧ exHist.valueDict.lookup "Variance" = none ∧ "keys" ∈ methodNames
    ∧ exHist.valueDict.lookup "values" = some (.arr () [1, 1]) := by
  refine ⟨rfl, rfl, rfl, by decide, by decide, rfl, by decide, rfl⟩

/-- and iterates as pairs. -/
example : exHist.toList = .ok [(0, 5), (1, 6)] := rfl

/-- a history without main value. -/
example : ({ exHist with valueName := none } : History Unit Int).valueName = none := rfl

end Verif.Hist
