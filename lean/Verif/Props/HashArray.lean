import Verif.Model.HashArray
import Mathlib.Data.List.Perm.Subperm
import Mathlib.Data.List.Nodup

/-!
C69: equality and hash of `HashableArray`. C82: equality of `HashablePartial`.
-/

namespace Verif.HashArray

variable {H : Type}

/-- entries that are no floating point zeros. -/
def NoSignedZero (a : Arr) : Prop := ∀ e ∈ a.data, ∀ b, e ≠ .zero b

theorem eqb_num {x y : Elt} (hx : ∀ b, x ≠ .zero b) (hy : ∀ b, y ≠ .zero b) (h : x.eqb y = true) : x = y := by
  cases x with
  | zero b => exact absurd rfl (hx b)
  | nan => simp [Elt.eqb, Elt.value] at h
  | num v =>
    cases y with
    | zero b => exact absurd rfl (hy b)
    | nan => simp [Elt.eqb, Elt.value] at h
    | num w =>
      simp only [Elt.eqb, Elt.value, decide_eq_true_eq] at h
      rw [h]

theorem zip_eq {l m : List Elt} (hl : l.length = m.length) (h1 : ∀ e ∈ l, ∀ b, e ≠ .zero b)
    (h2 : ∀ e ∈ m, ∀ b, e ≠ .zero b) (h : (l.zip m).all (fun p => p.1.eqb p.2) = true) : l = m := by
  induction l generalizing m with
  | nil => exact (List.length_eq_zero_iff.mp hl.symm).symm
  | cons x l ih =>
    cases m with
    | nil => simp at hl
    | cons y m =>
      simp only [List.zip_cons_cons, List.all_cons, Bool.and_eq_true] at h
      rw [eqb_num (h1 x List.mem_cons_self) (h2 y List.mem_cons_self) h.1,
        ih (by simpa using hl) (fun e he => h1 e (List.mem_cons_of_mem _ he))
          (fun e he => h2 e (List.mem_cons_of_mem _ he)) h.2]

/-- Arrays of the same dtype and shape without floating point zeros: if they compare equal, their hashes are
equal. Missing: different dtypes, different shapes and zeros of different sign, for which it fails. -/
theorem C69_hash_partial (hb : List Nat → H) (enc : Elt → List Nat) (a b : Arr) (hd : a.dtype = b.dtype)
    (hs : a.shape = b.shape) (hl : a.data.length = b.data.length) (ha : NoSignedZero a) (hb' : NoSignedZero b)
    (h : a.eqb b = true) : a.hash hb enc = b.hash hb enc := by
  rw [Arr.eqb, if_pos hs] at h
  have := zip_eq hl ha hb' h
  rw [Arr.hash, Arr.hash, Arr.tobytes, Arr.tobytes, this, hd]

/-- In particular for integer arrays of the same type and shape (as used for permutations and lattice data). -/
theorem C69_hash_int_partial (hb : List Nat → H) (enc : Elt → List Nat) (k : Nat) (s : List Nat) (x y : List ℤ)
    (hl : x.length = y.length)
    (h : Arr.eqb ⟨.int k, s, x.map fun v : ℤ => .num (v : ℚ)⟩ ⟨.int k, s, y.map fun v : ℤ => .num (v : ℚ)⟩ = true) :
    Arr.hash hb enc ⟨.int k, s, x.map fun v : ℤ => .num (v : ℚ)⟩ =
      Arr.hash hb enc ⟨.int k, s, y.map fun v : ℤ => .num (v : ℚ)⟩ := by
  refine C69_hash_partial hb enc ⟨.int k, s, x.map fun v : ℤ => .num (v : ℚ)⟩
    ⟨.int k, s, y.map fun v : ℤ => .num (v : ℚ)⟩ rfl rfl (by simpa using hl) ?_ ?_ h
  · intro e he b
    simp only [List.mem_map] at he
    obtain ⟨v, _, rfl⟩ := he
    simp
  · intro e he b
    simp only [List.mem_map] at he
    obtain ⟨v, _, rfl⟩ := he
    simp

/-- Same array twice: equal unless it contains NaN. -/
theorem C69_refl (a : Arr) : a.eqb a = true ↔ ∀ e ∈ a.data, e ≠ .nan := by
  rw [Arr.eqb, if_pos rfl]
  have : ∀ l : List Elt, ((l.zip l).all (fun p => p.1.eqb p.2) = true ↔ ∀ e ∈ l, e ≠ .nan) := by
    intro l
    induction l with
    | nil => simp
    | cons x l ih =>
      simp only [List.zip_cons_cons, List.all_cons, Bool.and_eq_true, ih, List.mem_cons, forall_eq_or_imp]
      refine and_congr ?_ Iff.rfl
      cases x <;> simp [Elt.eqb, Elt.value]
  exact this a.data

/-- the claim, for a collision free hash of bytes. -/
def HashSpec (enc : Elt → List Nat) : Prop :=
  ∀ a b : Arr, a.eqb b = true → a.hash (fun x => x) enc = b.hash (fun x => x) enc

/-- It fails for integer arrays of different width: `np.array([1], int32)` and `np.array([1], int64)`. -/
theorem C69_dtype_refuted (enc : Elt → List Nat) : ¬ HashSpec enc := by
  intro h
  have h1 := h ⟨.int 4, [1], [.num 1]⟩ ⟨.int 8, [1], [.num 1]⟩ (by simp [Arr.eqb, Elt.eqb, Elt.value])
  have h2 := congrArg List.length h1
  simp [Arr.hash, Arr.tobytes, Elt.bytes, intBytes] at h2

/-- It fails for arrays of the same dtype whose shapes broadcast: `[1]` and `[1, 1]`. -/
theorem C69_shape_refuted (enc : Elt → List Nat) :
    ¬ ∀ a b : Arr, a.dtype = b.dtype → a.eqb b = true → a.hash (fun x => x) enc = b.hash (fun x => x) enc := by
  intro h
  have h1 := h ⟨.int 8, [1], [.num 1]⟩ ⟨.int 8, [2], [.num 1, .num 1]⟩ rfl (by simp [Arr.eqb, Elt.eqb, Elt.value])
  have h2 := congrArg List.length h1
  simp [Arr.hash, Arr.tobytes, Elt.bytes, intBytes] at h2

/-- It fails for zeros of different sign, whose encodings differ. -/
theorem C69_zero_refuted (enc : Elt → List Nat) (he : enc (.zero true) ≠ enc (.zero false)) :
    ¬ ∀ a b : Arr, a.dtype = b.dtype → a.shape = b.shape → a.eqb b = true →
      a.hash (fun x => x) enc = b.hash (fun x => x) enc := by
  intro h
  have h1 := h ⟨.float, [1], [.zero true]⟩ ⟨.float, [1], [.zero false]⟩ rfl rfl
    (by simp [Arr.eqb, Elt.eqb, Elt.value])
  simp [Arr.hash, Arr.tobytes, Elt.bytes] at h1
  exact he h1

example : Arr.eqb ⟨.int 8, [2], [.num 1, .num 5]⟩ ⟨.int 8, [2], [.num 1, .num 5]⟩ = true ∧
    NoSignedZero ⟨.int 8, [2], [.num 1, .num 5]⟩ := by
  refine ⟨by simp [Arr.eqb, Elt.eqb, Elt.value], ?_⟩
  intro e he b
  simp only [List.mem_cons, List.not_mem_nil, or_false] at he
  rcases he with rfl | rfl <;> simp

/-! ### `HashablePartial` -/

variable {Code Env V : Type} [DecidableEq Code] [DecidableEq V]

/-- a dictionary has every key once. -/
def IsDict (l : List (Nat × V)) : Prop := (l.map Prod.fst).Nodup

theorem dictEq_mem {a b : List (Nat × V)} (ha : IsDict a) (h : dictEq a b = true) (x : Nat × V) :
    x ∈ a ↔ x ∈ b := by
  simp only [dictEq, Bool.and_eq_true, beq_iff_eq, List.all_eq_true, List.contains_iff_mem] at h
  have hp : a.Perm b :=
    (List.subperm_of_subset (List.Nodup.of_map _ ha) (fun y hy => h.2 y hy)).perm_of_length_le (by omega)
  exact hp.mem_iff

/-- **Equal partials hash equally.** -/
theorem C82_hash (p q : Partial Code Env V) (hp : IsDict p.kw) (h : p.eqb q = true) : p.hashKey = q.hashKey := by
  simp only [Partial.eqb, Bool.and_eq_true, decide_eq_true_eq] at h
  obtain ⟨⟨h1, h2⟩, h3⟩ := h
  simp only [Partial.hashKey, h1, h2, Prod.mk.injEq, true_and]
  funext x
  exact propext (dictEq_mem hp h3 x)

/-- a call: the function with its environment applied to the stored positional arguments, the new ones, and the
set of stored keyword arguments. -/
def callPartial {R : Type} (exec : Code → Env → List V → (Nat × V → Prop) → R) (p : Partial Code Env V)
    (extra : List V) : R :=
  exec p.func.code p.func.env (p.args ++ extra) fun x => x ∈ p.kw

/-- Equal partials whose functions have the same environment (closure and defaults) behave equally. Not covered:
functions that capture variables, for which it fails. -/
theorem C82_call {R : Type} (exec : Code → Env → List V → (Nat × V → Prop) → R) (p q : Partial Code Env V)
    (hp : IsDict p.kw) (h : p.eqb q = true) (he : p.func.env = q.func.env) (extra : List V) :
    callPartial exec p extra = callPartial exec q extra := by
  have hh := C82_hash p q hp h
  simp only [Partial.hashKey, Prod.mk.injEq] at hh
  simp only [callPartial, hh.1, hh.2.1, hh.2.2, he]

/-- Two partials of closures made from the same `def` with different captured values compare equal and hash
equally although they return different results. -/
theorem C126_closure_refuted :
    ¬ ∀ (exec : Unit → Nat → List Nat → (Nat × Nat → Prop) → Nat) (p q : Partial Unit Nat Nat), IsDict p.kw → IsDict q.kw →
      p.eqb q = true → ∀ extra, callPartial exec p extra = callPartial exec q extra := by
  intro h
  have := h (fun _ env args _ => env + args.sum) ⟨⟨(), 1⟩, [5], []⟩ ⟨⟨(), 2⟩, [5], []⟩ (by simp [IsDict])
    (by simp [IsDict]) (by decide) []
  simp [callPartial] at this

example : Partial.eqb (Env := Nat) ⟨⟨0, 7⟩, [1], [(0, 1), (1, 2)]⟩ ⟨⟨0, 7⟩, [1], [(1, 2), (0, 1)]⟩ = true ∧
    IsDict [(0, 1), (1, 2)] := by
  refine ⟨by decide, by simp [IsDict]⟩

end Verif.HashArray
