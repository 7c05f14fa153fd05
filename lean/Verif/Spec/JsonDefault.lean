import Verif.Model.JsonDefault

/-! What a log file is to contain, independently of how it is written. -/

namespace Verif.Log

/-- the JSON value of a floating-point number: null stands for what is no number -/
def fltJ : Flt → J
  | .fin q => .flt q
  | _ => .null

/-- the JSON value of an entry -/
def numJ : Num → J
  | .bool b => .bool b
  | .int i => .int i
  | .flt x => fltJ x

/-- entries which can be written: integers of 64 bits -/
def Num.Small : Num → Prop
  | .int i => -9223372036854775808 ≤ i ∧ i < 18446744073709551616
  | _ => True

/-- a floating-point number which is one -/
def Flt.Finite : Flt → Prop
  | .fin _ => True
  | _ => False

/-- entries which are numbers -/
def Num.Finite : Num → Prop
  | .flt x => x.Finite
  | _ => True

/-- a time series: one entry for each iteration -/
inductive Series
  | real (xs : List Num)
  | cplx (zs : List (Flt × Flt))

/-- the array which stores a time series -/
def Series.toArr : Series → Arr
  | .real xs => .real [xs.length] xs
  | .cplx zs => .cplx [zs.length] zs

/-- time series which can be written -/
def Series.Small : Series → Prop
  | .real xs => ∀ x ∈ xs, x.Small
  | .cplx _ => True

/-- time series of numbers -/
def Series.Finite : Series → Prop
  | .real xs => ∀ x ∈ xs, x.Finite
  | .cplx zs => ∀ z ∈ zs, z.1.Finite ∧ z.2.Finite

/-- what the file shows of a time series: the list of its entries, for complex ones two lists -/
def Series.shown : Series → J
  | .real xs => .arr (xs.map numJ)
  | .cplx zs => .obj [("real", .arr (zs.map fun z => fltJ z.1)), ("imag", .arr (zs.map fun z => fltJ z.2))]

/-- a history: named time series -/
abbrev Cols := List (String × Series)

/-- the object -/
def Cols.toObj (h : Cols) : Obj := .history (h.map fun c => (c.1, .arr c.2.toArr))

/-- what the file shows of a history -/
def Cols.shown (h : Cols) : J := .obj (h.map fun c => (c.1, c.2.shown))

/-- logged data: histories in nested lists and dictionaries, `n` levels deep -/
inductive Shows : Nat → Obj → J → Prop
  | hist (n : Nat) (h : Cols) : (∀ c ∈ h, c.2.Small) → Shows n h.toObj h.shown
  | list (n : Nat) (xs : List Obj) (js : List J) (hl : xs.length = js.length) :
      (∀ (i : Nat) (h : i < xs.length) (h' : i < js.length), Shows n xs[i] js[i]) → Shows (n + 1) (.list xs) (.arr js)
  | dict (n : Nat) (xs : List (String × Obj)) (js : List (String × J)) (hl : xs.length = js.length) :
      (∀ (i : Nat) (h : i < xs.length) (h' : i < js.length), xs[i].1 = js[i].1) →
      (∀ (i : Nat) (h : i < xs.length) (h' : i < js.length), Shows n xs[i].2 js[i].2) →
      Shows (n + 1) (.dict xs) (.obj js)
  | none (n : Nat) : Shows n .none .null

end Verif.Log
