import Verif.Spec.HilbertEq
import Mathlib.Data.List.Perm.Basic
import Mathlib.Tactic.NormNum

/-! C167: equality and hash of Hilbert spaces; C168: constrained and custom spaces. -/

namespace Verif.HilbertEq

theorem sameFn_refl (f : Option Fn) : sameFn f f = true := by cases f <;> simp [sameFn]

theorem sameFn_symm (f g : Option Fn) (h : sameFn f g = true) : sameFn g f = true := by
  cases f <;> cases g <;> simp_all [sameFn]

theorem sameFn_trans (f g k : Option Fn) (h : sameFn f g = true) (h' : sameFn g k = true) : sameFn f k = true := by
  cases f <;> cases g <;> cases k <;> simp_all [sameFn]

mutual
theorem eq_refl : ∀ a : Space, eq a a = true
  | .qubit n => by simp [eq]
  | .spin n t f => by simp [eq, sameFn_refl]
  | .fock n m f => by simp [eq, sameFn_refl]
  | .custom n l f => by simp [eq, sameFn_refl]
  | .tensor l => by simp only [eq]; exact eqAll_refl l
  | .doubled a => by simp only [eq]; exact eq_refl a
theorem eqAll_refl : ∀ l : List Space, eqAll l l = true
  | [] => by simp [eqAll]
  | a :: l => by simp only [eqAll, Bool.and_eq_true]; exact ⟨eq_refl a, eqAll_refl l⟩
end

mutual
theorem eq_symm : ∀ a b : Space, eq a b = true → eq b a = true
  | .qubit n, b, h => by cases b <;> simp_all [eq]
  | .spin n t f, b, h => by
    cases b <;> simp_all only [eq, Bool.and_eq_true, beq_iff_eq, Bool.false_eq_true]
    exact ⟨⟨trivial, trivial⟩, sameFn_symm _ _ h.2⟩
  | .fock n m f, b, h => by
    cases b <;> simp_all only [eq, Bool.and_eq_true, beq_iff_eq, Bool.false_eq_true]
    exact ⟨⟨trivial, trivial⟩, sameFn_symm _ _ h.2⟩
  | .custom n l f, b, h => by
    cases b <;> simp_all only [eq, Bool.and_eq_true, beq_iff_eq, Bool.false_eq_true]
    exact ⟨⟨⟨⟨trivial, trivial⟩, trivial⟩, trivial⟩, sameFn_symm _ _ h.2⟩
  | .tensor l, b, h => by
    cases b <;> simp_all only [eq, Bool.false_eq_true]
    exact eqAll_symm l _ h
  | .doubled a, b, h => by
    cases b <;> simp_all only [eq, Bool.false_eq_true]
    exact eq_symm a _ h
theorem eqAll_symm : ∀ l k : List Space, eqAll l k = true → eqAll k l = true
  | [], k, h => by cases k <;> simp_all [eqAll]
  | a :: l, k, h => by
    cases k <;> simp_all only [eqAll, Bool.and_eq_true, Bool.false_eq_true]
    exact ⟨eq_symm a _ h.1, eqAll_symm l _ h.2⟩
end

mutual
theorem eq_trans : ∀ a b c : Space, eq a b = true → eq b c = true → eq a c = true
  | .qubit n, b, c, h, h' => by cases b <;> cases c <;> simp_all [eq]
  | .spin n t f, b, c, h, h' => by
    cases b <;> cases c <;> simp only [eq, Bool.and_eq_true, beq_iff_eq, Bool.false_eq_true] at h h' ⊢
    exact ⟨⟨h.1.1.trans h'.1.1, h.1.2.trans h'.1.2⟩, sameFn_trans _ _ _ h.2 h'.2⟩
  | .fock n m f, b, c, h, h' => by
    cases b <;> cases c <;> simp only [eq, Bool.and_eq_true, beq_iff_eq, Bool.false_eq_true] at h h' ⊢
    exact ⟨⟨h.1.1.trans h'.1.1, h.1.2.trans h'.1.2⟩, sameFn_trans _ _ _ h.2 h'.2⟩
  | .custom n l f, b, c, h, h' => by
    cases b <;> cases c <;> simp only [eq, Bool.and_eq_true, beq_iff_eq, Bool.false_eq_true] at h h' ⊢
    exact ⟨⟨⟨⟨h.1.1.1.1.trans h'.1.1.1.1, h.1.1.1.2.trans h'.1.1.1.2⟩, h.1.1.2.trans h'.1.1.2⟩, h.1.2.trans h'.1.2⟩,
      sameFn_trans _ _ _ h.2 h'.2⟩
  | .tensor l, b, c, h, h' => by
    cases b <;> cases c <;> simp_all only [eq, Bool.false_eq_true]
    exact eqAll_trans l _ _ h h'
  | .doubled a, b, c, h, h' => by
    cases b <;> cases c <;> simp_all only [eq, Bool.false_eq_true]
    exact eq_trans a _ _ h h'
theorem eqAll_trans : ∀ l k m : List Space, eqAll l k = true → eqAll k m = true → eqAll l m = true
  | [], k, m, h, h' => by cases k <;> cases m <;> simp_all [eqAll]
  | a :: l, k, m, h, h' => by
    cases k <;> cases m <;> simp_all only [eqAll, Bool.and_eq_true, Bool.false_eq_true]
    exact ⟨eq_trans a _ _ h.1 h'.1, eqAll_trans l _ _ h.2 h'.2⟩
end

/-- C167: `==` of Hilbert spaces is an equivalence relation. -/
theorem C167_equivalence (a b c : Space) :
    eq a a = true ∧ (eq a b = true → eq b a = true) ∧ (eq a b = true → eq b c = true → eq a c = true) :=
  ⟨eq_refl a, eq_symm a b, eq_trans a b c⟩

theorem fnHash_eq (H : Hashes) (f g : Option Fn) (h : sameFn f g = true) : fnHash H f = fnHash H g := by
  cases f <;> cases g <;> simp_all [sameFn, fnHash]

mutual
/-- C167: equal Hilbert spaces have the same hash, whatever python's hashes of the attributes are. -/
theorem C167_hash (H : Hashes) : ∀ a b : Space, eq a b = true → hash H a = hash H b
  | .qubit n, b, h => by cases b <;> simp_all [eq, hash]
  | .spin n t f, b, h => by
    cases b <;> simp_all only [eq, Bool.and_eq_true, beq_iff_eq, Bool.false_eq_true, hash]
    rw [fnHash_eq H _ _ h.2]
  | .fock n m f, b, h => by
    cases b <;> simp_all only [eq, Bool.and_eq_true, beq_iff_eq, Bool.false_eq_true, hash]
    rw [fnHash_eq H _ _ h.2]
  | .custom n l f, b, h => by
    cases b <;> simp_all only [eq, Bool.and_eq_true, beq_iff_eq, Bool.false_eq_true, hash]
    rw [fnHash_eq H _ _ h.2]
  | .tensor l, b, h => by
    cases b <;> simp_all only [eq, Bool.false_eq_true, hash]
    rw [hashAll_eq H l _ h]
  | .doubled a, b, h => by
    cases b <;> simp_all only [eq, Bool.false_eq_true, hash]
    rw [C167_hash H a _ h]
theorem hashAll_eq (H : Hashes) : ∀ l k : List Space, eqAll l k = true → hashAll H l = hashAll H k
  | [], k, h => by cases k <;> simp_all [eqAll, hashAll]
  | a :: l, k, h => by
    cases k <;> simp_all only [eqAll, Bool.and_eq_true, Bool.false_eq_true, hashAll]
    rw [C167_hash H a _ h.1, hashAll_eq H l _ h.2]
end

theorem homog_congr (n : Nat) (P Q : ℚ → Prop) (f g : Option Fn) (x : List ℚ) (hP : ∀ v, P v ↔ Q v) (h : sameFn f g = true)
    (hp : ∀ a ∈ f.toList, ∀ b ∈ g.toList, a.id = b.id → a.pred = b.pred) : Homog n P f x ↔ Homog n Q g x := by
  have hf : (∀ a, f = some a → a.pred x = true) ↔ ∀ b, g = some b → b.pred x = true := by
    cases f with
    | none => cases g <;> simp_all [sameFn]
    | some a =>
      cases g with
      | none => simp [sameFn] at h
      | some b =>
        have := hp a (by simp) b (by simp) (by simpa [sameFn] using h)
        simp [this]
  unfold Homog
  rw [hf]
  simp only [hP]

theorem frozen_mem (l k : Option (List ℚ)) (h : frozen l = frozen k) (v : ℚ) : (∀ a, l = some a → v ∈ a) ↔ ∀ a, k = some a → v ∈ a := by
  cases l <;> cases k <;> simp_all [frozen]
  rename_i a b
  have := congrArg (v ∈ ·) h
  simpa using this

mutual
/-- C167: equal Hilbert spaces have the same number of degrees of freedom and the same configurations. -/
theorem C167_same_configurations : ∀ a b : Space, OneObject a b → eq a b = true → nSites a = nSites b ∧ ∀ x, Config a x ↔ Config b x
  | .qubit n, b, ho, h => by cases b <;> simp_all [eq, nSites, Config]
  | .spin n t f, b, ho, h => by
    cases b <;> simp_all only [eq, Bool.and_eq_true, beq_iff_eq, Bool.false_eq_true, nSites, Config]
    exact ⟨trivial, fun x => homog_congr _ _ _ _ _ x (fun v => Iff.rfl) h.2 ho⟩
  | .fock n m f, b, ho, h => by
    cases b <;> simp_all only [eq, Bool.and_eq_true, beq_iff_eq, Bool.false_eq_true, nSites, Config]
    exact ⟨trivial, fun x => homog_congr _ _ _ _ _ x (fun v => Iff.rfl) h.2 ho⟩
  | .custom n l f, b, ho, h => by
    cases b <;> simp only [eq, Bool.and_eq_true, beq_iff_eq, Bool.false_eq_true, nSites, Config] at h ⊢
    exact ⟨h.1.1.1.1, fun x => by
      rw [h.1.1.1.1]; exact homog_congr _ _ _ _ _ x (fun v => frozen_mem _ _ h.1.1.2 v) h.2 ho⟩
  | .tensor l, b, ho, h => by
    cases b <;> simp only [eq, Bool.false_eq_true, nSites, Config] at h ⊢
    exact sameAll l _ ho h
  | .doubled a, b, ho, h => by
    cases b <;> simp only [eq, Bool.false_eq_true, nSites, Config] at h ⊢
    rename_i b
    obtain ⟨h1, h2⟩ := C167_same_configurations a b ho h
    exact ⟨by rw [h1], fun x => by simp only [h2]⟩
theorem sameAll : ∀ l k : List Space, (∀ f ∈ fnsAll l, ∀ g ∈ fnsAll k, f.id = g.id → f.pred = g.pred) → eqAll l k = true →
    nSitesAll l = nSitesAll k ∧ ∀ x, ConfigAll l x ↔ ConfigAll k x
  | [], k, ho, h => by cases k <;> simp_all [eqAll, nSitesAll, ConfigAll]
  | a :: l, k, ho, h => by
    cases k with
    | nil => simp [eqAll] at h
    | cons b k =>
      simp only [eqAll, Bool.and_eq_true] at h
      obtain ⟨h1, h2⟩ := C167_same_configurations a b (fun f hf g hg => ho f (by simp [fnsAll, hf]) g (by simp [fnsAll, hg])) h.1
      obtain ⟨h3, h4⟩ := sameAll l k (fun f hf g hg => ho f (by simp [fnsAll, hf]) g (by simp [fnsAll, hg])) h.2
      refine ⟨by simp only [nSitesAll, h1, h3], fun x => ?_⟩
      simp only [ConfigAll, h2, h4]
end

mutual
/-- C167: equal spaces built from spins, bosons and qubits number the quantum numbers of every site alike. -/
theorem C167_same_order : ∀ a b : Space, noCustom a = true → eq a b = true → siteStates a = siteStates b
  | .qubit n, b, hc, h => by cases b <;> simp_all [eq, siteStates, localStates]
  | .spin n t f, b, hc, h => by cases b <;> simp_all [eq, siteStates, localStates]
  | .fock n m f, b, hc, h => by
    cases b <;> simp_all only [eq, Bool.and_eq_true, beq_iff_eq, Bool.false_eq_true, siteStates]
    congr 1
    rename_i m' _
    cases m' <;> rfl
  | .custom n l f, b, hc, h => by simp [noCustom] at hc
  | .tensor l, b, hc, h => by
    cases b <;> simp only [eq, Bool.false_eq_true, siteStates] at h ⊢
    exact orderAll l _ hc h
  | .doubled a, b, hc, h => by
    cases b <;> simp only [eq, Bool.false_eq_true, siteStates] at h ⊢
    rw [C167_same_order a _ hc h]
theorem orderAll : ∀ l k : List Space, noCustomAll l = true → eqAll l k = true → siteStatesAll l = siteStatesAll k
  | [], k, hc, h => by cases k <;> simp_all [eqAll, siteStatesAll]
  | a :: l, k, hc, h => by
    cases k with
    | nil => simp [eqAll] at h
    | cons b k =>
      simp only [eqAll, Bool.and_eq_true] at h
      simp only [noCustomAll, Bool.and_eq_true] at hc
      simp only [siteStatesAll, C167_same_order a b hc.1 h.1, orderAll l k hc.2 h.2]
end

/-- C167: spaces without constraint are equal exactly when they are built from the same class and the same arguments. -/
theorem C167_unconstrained (i j t u N M : Nat) (m k : Option Nat) :
    (eq (mkSpin i t N none) (mkSpin j u M none) = true ↔ t = u ∧ N = M) ∧
    (eq (mkFock i m N none) (mkFock j k M none) = true ↔ m = k ∧ N = M) ∧
    (eq (.qubit N) (.qubit M) = true ↔ N = M) ∧
    eq (.qubit N) (mkSpin j u M none) = false ∧ eq (mkFock i m N none) (mkSpin j u M none) = false ∧
    eq (.qubit N) (mkFock j k M none) = false := by
  simp [mkSpin, mkFock, eq, sameFn, and_comm]

/-- C168, refuted clause: "spaces built twice with the same arguments are equal".  Two spaces with a constraint are never equal unless they
    are one object, although their configurations are the same. -/
theorem C168_constraint_refuted (i j t N p : Nat) (z : Int) (m : Option Nat) (hij : i ≠ j) :
    (eq (mkSpin i t N (some z)) (mkSpin j t N (some z)) = false ∧
      ∀ x, Config (mkSpin i t N (some z)) x ↔ Config (mkSpin j t N (some z)) x) ∧
    (eq (mkFock i m N (some p)) (mkFock j m N (some p)) = false ∧
      ∀ x, Config (mkFock i m N (some p)) x ↔ Config (mkFock j m N (some p)) x) := by
  refine ⟨⟨by simp [mkSpin, eq, sameFn, hij], fun x => ?_⟩, by simp [mkFock, eq, sameFn, hij], fun x => ?_⟩
  · simp [mkSpin, Config, Homog]
  · simp [mkFock, Config, Homog]

/-- C168, refuted clause: "equal spaces number their states alike".  A CustomHilbert is equal to the one with its local states in any other
    order; the product of the two is the square of the first. -/
theorem C168_order_refuted (N : Nat) (l k : List ℚ) (h : l.Perm k) :
    eq (.custom N (some l) none) (.custom N (some k) none) = true ∧
    customMul (.custom N (some l) none) (.custom N (some k) none) = some (.custom (N * 2) (some l) none) ∧
    (l ≠ k → 0 < N → siteStates (.custom (N * 2) (some l) none) ≠
      siteStatesAll [.custom N (some l) none, .custom N (some k) none]) := by
  have e : eq (.custom N (some l) none) (.custom N (some k) none) = true := by
    simp [eq, localSize, frozen, sameFn, h.length_eq, List.toFinset_eq_of_perm _ _ h]
  refine ⟨e, by simp [customMul, e], ?_⟩
  intro hne hN heq
  simp only [siteStates, siteStatesAll, List.append_nil] at heq
  have h1 : (List.replicate (N * 2) (some l))[N]? = some (some l) := by
    rw [List.getElem?_replicate, if_pos (by omega)]
  have h2 : (List.replicate N (some l) ++ List.replicate N (some k))[N]? = some (some k) := by
    rw [List.getElem?_append_right (by simp)]
    simp [hN]
  rw [heq, h2] at h1
  exact hne (by simpa using h1.symm)

/-- C168, the part that holds: a CustomHilbert is equal to another one exactly when number of sites, number of local states, set of local
    states and constraint function (the same object) agree.  Missing: the order of the local states (refuted above). -/
theorem C168_custom_partial (N M : Nat) (l k : List ℚ) (f g : Option Fn) :
    eq (.custom N (some l) f) (.custom M (some k) g) = true ↔
      N = M ∧ l.length = k.length ∧ (∀ v, v ∈ l ↔ v ∈ k) ∧ f.map (·.id) = g.map (·.id) := by
  have hs : l.toFinset = k.toFinset ↔ ∀ v, v ∈ l ↔ v ∈ k := by
    rw [Finset.ext_iff]; simp
  have hf : ((f.isSome = g.isSome) ∧ sameFn f g = true) ↔ f.map (·.id) = g.map (·.id) := by
    cases f <;> cases g <;> simp [sameFn]
  simp only [eq, localSize, frozen, Option.map_some, Bool.and_eq_true, beq_iff_eq, Option.some.injEq]
  rw [hs, ← hf]
  tauto

/-- the hypotheses of `C167_same_configurations` and `C167_same_order`: a product of a constrained space with a doubled boson space. -/
example : let a := Space.tensor [mkSpin 7 1 4 (some 0), .doubled (mkFock 0 (some 2) 3 none)]
    OneObject a a ∧ eq a a = true ∧ noCustom a = true ∧ nSites a = 10 ∧
    siteStates (mkSpin 7 1 2 (some 0)) = [some [-1, 1], some [-1, 1]] := by
  refine ⟨?_, eq_refl _, by simp [noCustom, noCustomAll, mkSpin, mkFock], by simp [nSites, nSitesAll, mkSpin, mkFock], ?_⟩
  · intro f hf g hg _
    simp [fns, fnsAll, mkSpin, mkFock] at hf hg
    rw [hf, hg]
  · decide +kernel

example : eq (mkSpin 1 1 4 none) (mkSpin 2 1 4 none) = true ∧ eq (mkSpin 1 1 4 none) (mkSpin 2 2 4 none) = false := by decide

example : ([0, 1, 2] : List ℚ).Perm [2, 0, 1] ∧ ([0, 1, 2] : List ℚ) ≠ [2, 0, 1] := by
  refine ⟨by decide +kernel, by decide +kernel⟩

example : (0 : Nat) ≠ 1 ∧ Config (mkSpin 0 1 2 (some 0)) [1, -1] := by
  refine ⟨by decide, ?_⟩
  simp only [mkSpin, Config, Homog, Option.map_some]
  refine ⟨rfl, ?_, ?_⟩
  · intro v hv
    simp at hv
    rcases hv with rfl | rfl
    · exact ⟨1, by omega, by norm_num⟩
    · exact ⟨0, by omega, by norm_num⟩
  · intro f hf
    cases hf
    decide +kernel

end Verif.HilbertEq
