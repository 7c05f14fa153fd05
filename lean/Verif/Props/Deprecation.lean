import Verif.Model.Deprecation
import Verif.Props.Lattice

/-! C242 (old names act like the functions they stand for, after one warning), C243 (where they do not). -/

set_option linter.unusedSectionVars false
set_option linter.unusedVariables false

namespace Verif.Depr
open Verif.Hilbert (Err)
open Verif.Lat (Lattice mkLattice Closest inner shell radix)

/-! ## Specification -/

/-- `a` issues the message `m` and then does what `b` does; where `m` is turned into an exception nothing else happens. -/
def WarnsThen {σ α : Type} (m : Msg) (a b : Act σ α) : Prop :=
  ∀ raises s,
    (raises m = false → (a raises s).1 = (b raises s).1 ∧ (a raises s).2.1 = (b raises s).2.1 ∧ (a raises s).2.2 = m :: (b raises s).2.2)
    ∧ (raises m = true → a raises s = (.warning m, s, []))

/-- `a` issues the message `m` once, ends with the result `r` and leaves the state alone. -/
def WarnsOnce {σ α : Type} (m : Msg) (a : Act σ α) (r : Except Err α) : Prop :=
  ∀ raises s,
    (raises m = false → a raises s = (match r with | .ok x => .ok x | .error e => .err e, s, [m]))
    ∧ (raises m = true → a raises s = (.warning m, s, []))

/-- the text `p` occurs in `m`. -/
def Mentions (m p : Msg) : Prop := ∃ u v, m = u ++ p ++ v

/-! ## Wrappers -/

theorem warnsThen_andThen {σ α : Type} (m : Msg) (b : Act σ α) : WarnsThen m (andThen (warn m) fun _ => b) b := by
  intro raises s
  constructor
  · intro h
    simp [andThen, warn, h]
  · intro h
    simp [andThen, warn, h]

/-- `deprecated(reason)(func)`: one FutureWarning, then exactly the result, effect and warnings of `func`; the function is not called if
    the warning is an error. -/
theorem C242_wrapper {σ A α : Type} (dedent : Msg → Msg) (isClass : Bool) (name : Msg) (reason : Option Msg) (f : A → Act σ α) (a : A) :
    WarnsThen (message dedent isClass name reason) (deprecated dedent isClass name reason f a) (f a) :=
  warnsThen_andThen _ _

/-- the same for renamed functions. -/
theorem C242_renamed {σ A α : Type} (dedent : Msg → Msg) (name new : Msg) (f : A → Act σ α) (a : A) :
    WarnsThen (renamedMessage dedent name new) (deprecatedNewName dedent name new f a) (f a)
      ∧ Mentions (renamedMessage dedent name new) (name ++ " has been renamed to ".toList ++ dedent new) :=
  ⟨warnsThen_andThen _ _, [], _, by rw [renamedMessage, List.nil_append]⟩

/-- the message names the kind and the name of what is called and contains the reason, if there is one. -/
theorem C242_message (dedent : Msg → Msg) (isClass : Bool) (name : Msg) (reason : Option Msg) :
    Mentions (message dedent isClass name reason) ("'".toList ++ name ++ "'".toList)
      ∧ Mentions (message dedent isClass name reason) (if isClass then " class ".toList else " function ".toList)
      ∧ (reason = none → message dedent isClass name reason =
          "Call to deprecated ".toList ++ (if isClass then "class".toList else "function".toList) ++ " '".toList ++ name ++ "'".toList)
      ∧ ∀ r, reason = some r → message dedent isClass name reason =
          message dedent isClass name none ++ " (".toList ++ dedent r ++ ")".toList := by
  have h1 : "Call to deprecated ".toList = "Call to deprecated".toList ++ " ".toList := by decide +kernel
  have hq : " '".toList = " ".toList ++ "'".toList := by decide +kernel
  have hc : " class ".toList = " ".toList ++ "class".toList ++ " ".toList := by decide +kernel
  have hf : " function ".toList = " ".toList ++ "function".toList ++ " ".toList := by decide +kernel
  unfold message
  generalize "Call to deprecated ".toList = A at *
  generalize "Call to deprecated".toList = A' at *
  generalize " class ".toList = B at *
  generalize " function ".toList = C at *
  generalize "class".toList = B' at *
  generalize "function".toList = C' at *
  generalize " '".toList = Q at *
  generalize "'".toList = Q' at *
  generalize " ".toList = S at *
  generalize " (".toList = O at *
  generalize ")".toList = O' at *
  subst h1 hq hc hf
  refine ⟨?_, ?_, ?_, ?_⟩
  · refine ⟨A' ++ S ++ (if isClass then B' else C') ++ S, (match reason with | none => [] | some r => O ++ dedent r ++ O'), ?_⟩
    cases reason <;> simp only [List.append_assoc, List.append_nil]
  · refine ⟨A', Q' ++ name ++ Q' ++ (match reason with | none => [] | some r => O ++ dedent r ++ O'), ?_⟩
    cases isClass <;> cases reason <;>
      simp only [Bool.false_eq_true, if_false, if_true, List.append_assoc, List.append_nil]
  · intro h
    rw [h]
  · intro r h
    rw [h]

theorem warnsOnce_of_then {σ α : Type} {m : Msg} {a : Act σ α} {r : Except Err α} (h : WarnsThen m a (pureAct r)) : WarnsOnce m a r := by
  intro raises s
  refine ⟨?_, (h raises s).2⟩
  intro hm
  obtain ⟨h1, h2, h3⟩ := (h raises s).1 hm
  refine Prod.ext ?_ (Prod.ext ?_ ?_)
  · rw [h1]; cases r <;> rfl
  · rw [h2]; cases r <;> rfl
  · rw [h3]; cases r <;> rfl

/-- the deprecated methods of lattices: the message names the method and the alternative. -/
theorem C242_lattice_message (name alternative : Msg) :
    Mentions (latticeReason name alternative) name ∧ Mentions (latticeReason name alternative) alternative := by
  unfold latticeReason
  generalize " is deprecated and may be removed in the future. You can use `".toList = A
  generalize "`` instead.".toList = B
  exact ⟨⟨[], A ++ alternative ++ B, by simp only [List.append_assoc, List.nil_append]⟩, ⟨name ++ A, B, rfl⟩⟩

/-! ## Lattices -/

/-- the message of an old accessor. -/
def latticeText (dedent : Msg → Msg) (name alternative : String) : Msg :=
  "Call to deprecated function '".toList ++ name.toList ++ "' (".toList ++
    dedent (name.toList ++ " is deprecated and may be removed in the future. You can use `".toList ++ alternative.toList ++
      "`` instead.".toList) ++ ")".toList

theorem latticeText_eq (dedent : Msg → Msg) (name alternative : String) :
    message dedent false name.toList (some (latticeReason name.toList alternative.toList)) = latticeText dedent name alternative := by
  have h1 : "Call to deprecated function '".toList = "Call to deprecated ".toList ++ "function".toList ++ " '".toList := by decide +kernel
  have h2 : "' (".toList = "'".toList ++ " (".toList := by decide +kernel
  unfold message latticeText latticeReason
  rw [h1, h2]
  simp only [Bool.false_eq_true, if_false, List.append_assoc]

theorem warnsOnce_lattice {σ A α : Type} (dedent : Msg → Msg) (name alternative : String) (f : A → Act σ α) (a : A) (r : Except Err α)
    (h : f a = pureAct r) :
    WarnsOnce (latticeText dedent name alternative) (latticeDeprecated dedent name.toList alternative.toList f a) r := by
  rw [← latticeText_eq]
  refine warnsOnce_of_then ?_
  rw [← h]
  exact warnsThen_andThen _ _

theorem npIndex_nat {α : Type} (l : List α) (i : Nat) (a : α) (h : l[i]? = some a) : npIndex l (i : Int) = .ok a := by
  unfold npIndex
  rw [if_neg (by omega : ¬ (i : Int) < 0), Int.toNat_natCast, h]
  simp only
  rw [if_neg (by omega)]

theorem npIndex_neg {α : Type} (l : List α) (i : Nat) (h0 : 0 < i) (h : i ≤ l.length) :
    npIndex l (-(i : Int)) = npIndex l ((l.length - i : Nat) : Int) := by
  have hl : l.length - i < l.length := by omega
  rw [npIndex_nat l (l.length - i) l[l.length - i] (List.getElem?_eq_getElem hl)]
  unfold npIndex
  rw [if_pos (by omega : -(i : Int) < 0)]
  have : (-(i : Int) + (l.length : Int)).toNat = l.length - i := by omega
  rw [this, List.getElem?_eq_getElem hl]
  simp only
  rw [if_neg (by omega)]

theorem npIndex_out {α : Type} (l : List α) (i : Int) (h : i < -(l.length : Int) ∨ (l.length : Int) ≤ i) :
    npIndex l i = .error .indexError := by
  unfold npIndex
  rcases h with h | h
  · split
    · rw [if_pos h]
    · rfl
  · rw [if_neg (by omega : ¬ i < 0), List.getElem?_eq_none (by omega)]

theorem npIndex_map {α β : Type} (f : α → β) (l : List α) (i : Int) : npIndex (l.map f) i = (npIndex l i).map f := by
  unfold npIndex
  rw [List.length_map, List.getElem?_map]
  cases l[(if i < 0 then i + (l.length : Int) else i).toNat]? with
  | none => rfl
  | some a => simp only [Option.map_some]; split <;> rfl

theorem radix_append (ext : List Nat) (nb : Nat) (r : List Int) (q : Int) (h : r.length = ext.length) :
    radix (ext ++ [nb]) (r ++ [q]) = radix ext r * (nb : Int) + q := by
  induction ext generalizing r with
  | nil =>
    cases r with
    | nil => simp [radix]
    | cons x xs => simp at h
  | cons e es ih =>
    cases r with
    | nil => simp at h
    | cons x xs =>
      simp only [List.length_cons, Nat.add_right_cancel_iff] at h
      simp only [List.cons_append, radix, ih xs h, List.prod_append, List.prod_cons, List.prod_nil, Nat.mul_one, Nat.cast_mul]
      ring

theorem radix_nonneg (ext : List Nat) (r : List Int) (h : List.Forall₂ (fun x (d : Nat) => 0 ≤ x ∧ x < (d : Int)) r ext) :
    0 ≤ radix ext r := by
  induction h with
  | nil => simp [radix]
  | cons ha hb ih =>
    rw [radix]
    exact add_nonneg (mul_nonneg ha.1 (Int.natCast_nonneg _)) ih

/-- the old accessors of a lattice of which all sites are nodes (as in C34).  For every site `i` of cell `r` and label `q`:
    `site_to_vector(i) = r`, `atom_label(i) = q`, `i = cell * n_basis + q`; `vector_to_site(r)` is the first site of the cell, which is `i`
    only if the label is zero; `vector_to_coord(r, q)` and `site_to_coord(i)` are the position of site `i`. Each call issues one warning,
    which names the replacement. -/
theorem C242_lattice {σ P : Type} (dedent : Msg → Msg) (pos : List Int → P) (near : List Int → List Int → Option Int)
    (hsym : ∀ a b, near a b = near b a) (hirr : ∀ a, near a a = none) (ext : List Nat) (pbc : List Bool) (nb : Nat)
    (hlen : ext.length = pbc.length) (hpos : ∀ e ∈ ext, 0 < e) (hnb : 0 < nb)
    (hall : ∀ u ∈ inner ext nb, ∃ c ∈ shell ext pbc nb, Closest near (shell ext pbc nb) u c) :
    ∃ L, mkLattice ext pbc nb near = .ok L ∧ ∀ i : Nat, i < ext.prod * nb → ∃ (r : List Int) (q : Nat),
      q < nb ∧ List.Forall₂ (fun x (d : Nat) => 0 ≤ x ∧ x < (d : Int)) r ext ∧ (i : Int) = radix ext r * (nb : Int) + (q : Int)
      ∧ WarnsOnce (latticeText dedent "site_to_vector" "basis_coords[site_id, :-1]") (siteToVector (σ := σ) dedent L (i : Int)) (.ok r)
      ∧ WarnsOnce (latticeText dedent "atom_label" "basis_coords[site_id, -1]") (atomLabel (σ := σ) dedent L (i : Int)) (.ok (q : Int))
      ∧ WarnsOnce (latticeText dedent "site_to_coord" "positions[site_id]") (siteToCoord (σ := σ) dedent pos L (i : Int)) (.ok (pos (r ++ [(q : Int)])))
      ∧ WarnsOnce (latticeText dedent "vector_to_coord" "position_from_basis_coords([*vector, label])")
          (vectorToCoord (σ := σ) dedent pos L (r, (q : Int))) (.ok (pos (r ++ [(q : Int)])))
      ∧ WarnsOnce (latticeText dedent "vector_to_site" "id_from_basis_coords([*vector, 0])") (vectorToSite (σ := σ) dedent L r) (.ok (i - q))
      ∧ q ≤ i ∧ (i - q = i ↔ q = 0) := by
  obtain ⟨L, h1, h2, h3, h4, h5, h6, h7⟩ := Verif.Lat.C34_numbering near hsym hirr ext pbc nb hlen hpos hnb hall
  refine ⟨L, h1, ?_⟩
  intro i hi
  have hi' : i < L.basisCoords.length := by rw [← h2] at hi; exact hi
  have hget : L.basisCoords[i]? = some L.basisCoords[i] := List.getElem?_eq_getElem hi'
  generalize hc : L.basisCoords[i] = c at hget
  obtain ⟨hm, hrad⟩ := (h5 i c).1 hget
  have hf := (h4 c).1 hm
  obtain ⟨r, l, hr, hl, rfl⟩ : ∃ r l, List.Forall₂ (fun x (d : Nat) => 0 ≤ x ∧ x < (d : Int)) r ext
      ∧ List.Forall₂ (fun x (d : Nat) => 0 ≤ x ∧ x < (d : Int)) l [nb] ∧ c = r ++ l := by
    refine ⟨c.take ext.length, c.drop ext.length, List.forall₂_take_append _ _ _ hf, List.forall₂_drop_append _ _ _ hf, ?_⟩
    exact (List.take_append_drop _ _).symm
  obtain ⟨x, rfl, hx0, hx1⟩ : ∃ x : Int, l = [x] ∧ 0 ≤ x ∧ x < (nb : Int) := by
    cases hl with
    | cons ha hb => cases hb; exact ⟨_, rfl, ha.1, ha.2⟩
  obtain ⟨q, rfl⟩ := Int.eq_ofNat_of_zero_le hx0
  have hrl : r.length = ext.length := hr.length_eq
  rw [radix_append ext nb r q hrl] at hrad
  have hr0 : 0 ≤ radix ext r * (nb : Int) := mul_nonneg (radix_nonneg ext r hr) (Int.natCast_nonneg _)
  have hqi : q ≤ i := by omega
  have hpget : (positions pos L)[i]? = some (pos (r ++ [(q : Int)])) := by
    rw [positions, List.getElem?_map, hget]
    rfl
  refine ⟨r, q, by omega, hr, hrad, ?_, ?_, ?_, ?_, ?_, hqi, by omega⟩
  · refine warnsOnce_lattice dedent _ _ _ _ _ ?_
    rw [npIndex_nat _ _ _ hget]
    simp [Except.map]
  · refine warnsOnce_lattice dedent _ _ _ _ _ ?_
    rw [npIndex_nat _ _ _ hget]
    simp [Except.map]
  · refine warnsOnce_lattice dedent _ _ _ _ _ ?_
    rw [npIndex_nat _ _ _ hpget]
  · refine warnsOnce_lattice dedent _ _ _ _ _ ?_
    dsimp only
    rw [positionFromBasisCoords, (h6 i _).2 hget]
    dsimp only
    rw [npIndex_nat _ _ _ hpget]
  · refine warnsOnce_lattice dedent _ _ _ _ _ ?_
    have h0 : r ++ [0] ∈ L.basisCoords := (h4 _).2 (List.rel_append hr (List.Forall₂.cons ⟨le_refl _, by omega⟩ List.Forall₂.nil))
    have hg := (h5 (i - q) (r ++ [0])).2 ⟨h0, by rw [radix_append ext nb r 0 hrl]; omega⟩
    rw [(h6 (i - q) _).2 hg]

/-- negative site numbers count from the end, numbers outside `-n, …, n-1` are IndexErrors; a vector that is no cell of the lattice is an
    InvalidSiteError (a `keyError` in the model); `coordinates` are all positions. -/
theorem C242_lattice_edge {σ P : Type} (dedent : Msg → Msg) (pos : List Int → P) (L : Lattice) :
    (∀ i : Nat, 0 < i → i ≤ L.nNodes → ∀ raises (s : σ),
        siteToVector dedent L (-(i : Int)) raises s = siteToVector dedent L ((L.nNodes - i : Nat) : Int) raises s
        ∧ atomLabel dedent L (-(i : Int)) raises s = atomLabel dedent L ((L.nNodes - i : Nat) : Int) raises s
        ∧ siteToCoord dedent pos L (-(i : Int)) raises s = siteToCoord dedent pos L ((L.nNodes - i : Nat) : Int) raises s)
    ∧ (∀ i : Int, i < -(L.nNodes : Int) ∨ (L.nNodes : Int) ≤ i →
        WarnsOnce (latticeText dedent "site_to_vector" "basis_coords[site_id, :-1]") (siteToVector (σ := σ) dedent L i) (.error .indexError)
        ∧ WarnsOnce (latticeText dedent "atom_label" "basis_coords[site_id, -1]") (atomLabel (σ := σ) dedent L i) (.error .indexError)
        ∧ WarnsOnce (latticeText dedent "site_to_coord" "positions[site_id]") (siteToCoord (σ := σ) dedent pos L i) (.error .indexError))
    ∧ (∀ v, v ++ [0] ∉ L.basisCoords →
        WarnsOnce (latticeText dedent "vector_to_site" "id_from_basis_coords([*vector, 0])") (vectorToSite (σ := σ) dedent L v) (.error .keyError))
    ∧ (∀ v q, v ++ [q] ∉ L.basisCoords →
        WarnsOnce (latticeText dedent "vector_to_coord" "position_from_basis_coords([*vector, label])")
          (vectorToCoord (σ := σ) dedent pos L (v, q)) (.error .keyError))
    ∧ WarnsOnce (latticeText dedent "coordinates" "positions") (coordinates (σ := σ) dedent pos L ()) (.ok (L.basisCoords.map pos)) := by
  have hpl : (positions pos L).length = L.nNodes := by rw [positions, List.length_map]; rfl
  refine ⟨?_, ?_, ?_, ?_, ?_⟩
  · intro i h0 h raises s
    have e1 := npIndex_neg L.basisCoords i h0 h
    have e2 := npIndex_neg (positions pos L) i h0 (by omega)
    rw [hpl] at e2
    unfold Lattice.nNodes at *
    refine ⟨?_, ?_, ?_⟩
    · simp only [siteToVector, latticeDeprecated, deprecated, e1]
    · simp only [atomLabel, latticeDeprecated, deprecated, e1]
    · simp only [siteToCoord, latticeDeprecated, deprecated, e2]
  · intro i h
    refine ⟨?_, ?_, ?_⟩
    · refine warnsOnce_lattice dedent _ _ _ _ _ ?_
      rw [npIndex_out _ _ h]
      rfl
    · refine warnsOnce_lattice dedent _ _ _ _ _ ?_
      rw [npIndex_out _ _ h]
      rfl
    · refine warnsOnce_lattice dedent _ _ _ _ _ ?_
      rw [npIndex_out _ _ (by rw [hpl]; exact h)]
  · intro v h
    refine warnsOnce_lattice dedent _ _ _ _ _ ?_
    rw [Lattice.idFromBasisCoords, if_neg h]
  · intro v q h
    refine warnsOnce_lattice dedent _ _ _ _ _ ?_
    rw [positionFromBasisCoords, Lattice.idFromBasisCoords, if_neg h]
  · exact warnsOnce_lattice dedent _ _ _ _ _ rfl

/-- the hypotheses are those of C34, met for example by a chain of two sites per cell. -/
def pairNear (a b : List Int) : Option Int :=
  match a, b with
  | [x, q], [y, r] => if (2 * x + q - (2 * y + r)) * (2 * x + q - (2 * y + r)) = 1 then some 1 else none
  | _, _ => none

example : (match mkLattice [3] [true] 2 pairNear with
    | .ok L => decide (L.nNodes = 6 ∧ (vectorToSite (σ := Unit) id L [2] (fun _ => false) ()).1 = .ok 4
        ∧ (siteToVector (σ := Unit) id L 5 (fun _ => false) ()).1 = .ok [2]
        ∧ (atomLabel (σ := Unit) id L (-1) (fun _ => false) ()).1 = .ok 1)
    | .error _ => false) = true := by decide +kernel

/-! ## The graph argument -/

theorem graphToN_none {σ : Type} (dedent : Msg → Msg) (text : Msg) (N : Nat) (raises : Msg → Bool) (s : σ) :
    graphToN dedent text N none raises s = (.ok N, s, []) := rfl

/-- `graph=` in the constructors of Hilbert spaces: without it no warning and `N` sites (one by default); with it one warning and the
    number of nodes as number of sites; a graph together with `N ≠ 1` is a ValueError. -/
theorem C242_graph {σ S : Type} (dedent : Msg → Msg) (text : Msg) (build : Nat → Except Err S) :
    (∀ N raises (s : σ), space dedent text build N none raises s
        = (match build (N.getD 1) with | .ok x => .ok x | .error e => .err e, s, []))
    ∧ (∀ n, WarnsOnce (dedent text) (space (σ := σ) dedent text build none (some n)) (build n))
    ∧ ∀ N n, N ≠ 1 → WarnsOnce (dedent text) (space (σ := σ) dedent text build (some N) (some n)) (.error .valueError) := by
  refine ⟨?_, ?_, ?_⟩
  · intro N raises s
    unfold space andThen
    rw [graphToN_none]
    cases h : build (N.getD 1) <;> simp [pureAct, h]
  · intro n raises s
    constructor
    · intro h
      unfold space andThen graphToN andThen warn
      cases hb : build n <;> simp [h, pureAct, hb]
    · intro h
      simp [space, andThen, graphToN, warn, h]
  · intro N n hN raises s
    constructor
    · intro h
      simp [space, andThen, graphToN, warn, h, pureAct, hN]
    · intro h
      simp [space, andThen, graphToN, warn, h]

/-- `Boson(n_max, N, n_bosons, graph)` is `Fock(n_max, N, n_particles, graph)` after one warning. -/
theorem C242_boson {σ S : Type} (dedent : Msg → Msg) (reason text : Msg) (fock : Option Nat → Option Int → Nat → Except Err S)
    (nMax N : Option Nat) (nBosons : Option Int) (graph : Option Nat) :
    WarnsThen (message dedent false "Boson".toList (some reason)) (boson (σ := σ) dedent reason text fock (nMax, N, nBosons, graph))
      (space dedent text (fock nMax nBosons) N graph) := by
  have h : space (σ := σ) dedent text (fock nMax nBosons) (some (N.getD 1)) graph = space dedent text (fock nMax nBosons) N graph := by
    cases N <;> rfl
  rw [← h]
  exact warnsThen_andThen _ _

/-- "only one argument among N and graph": an explicit `N = 1` next to a graph is accepted and ignored. -/
theorem C243_graph_refuted :
    ¬ ∀ (N n : Nat), WarnsOnce (σ := Unit) [] (space id [] (fun k => Except.ok k) (some N) (some n)) (.error .valueError) := by
  intro h
  have := (h 1 3 (fun _ => false) ()).1 rfl
  simp [space, andThen, graphToN, warn, pureAct] at this

/-- what holds: it is an error exactly for `N ≠ 1`; for `N = 1` the number of nodes of the graph is used. -/
theorem C243_graph_partial {σ : Type} (dedent : Msg → Msg) (text : Msg) (N n : Nat) :
    WarnsOnce (dedent text) (space (σ := σ) dedent text (fun k => Except.ok k) (some N) (some n))
      (if N = 1 then .ok n else .error .valueError) := by
  by_cases hN : N = 1
  · subst hN
    have := (C242_graph (σ := σ) dedent text (fun k => Except.ok k)).2.1 n
    rw [if_pos rfl]
    exact this
  · rw [if_neg hN]
    exact (C242_graph (σ := σ) dedent text (fun k => Except.ok k)).2.2 N n hN

example : (space (σ := Unit) id "graph".toList (fun k => Except.ok k) none (some 7) (fun _ => false) ()).1 = .ok 7 := by decide
example : (space (σ := Unit) id "graph".toList (fun k => Except.ok k) (some 2) (some 7) (fun _ => false) ()).1 = .err .valueError := rfl

/-! ## SRLazyCG and SRLazyGMRES -/

open Verif.SR (Val Kw Obj Solver Key get pop put objCG objGMRES legacyKeys legacySolverKeys)

theorem get_cons (k k' : Key) (v : Val) (kw : Kw) : get ((k, v) :: kw) k' = if k = k' then some v else get kw k' := by
  unfold SR.get
  rw [List.find?_cons]
  by_cases h : k = k'
  · simp [h]
  · simp [h]

theorem pop_cons (k k' : Key) (v : Val) (kw : Kw) : pop ((k, v) :: kw) k' = if k = k' then pop kw k' else (k, v) :: pop kw k' := by
  unfold SR.pop
  rw [List.filter_cons]
  by_cases h : k = k'
  · simp [h]
  · simp [h]

theorem pop_of_get_none (k : Key) (kw : Kw) (h : get kw k = none) : pop kw k = kw := by
  unfold SR.get at h
  unfold SR.pop
  rw [Option.map_eq_none_iff, List.find?_eq_none] at h
  rw [List.filter_eq_self]
  intro p hp
  have := h p hp
  simpa using this

/-- without solver options the old functions give what they promise: the on-the-fly tensor, the given shift, and the solver. The extra
    keyword arguments (none of them an option of the solvers) go both to the tensor and to the solver. -/
theorem C242_lazy (base : Val) (pid : Nat) (diagShift : Val) (restart : Bool) (kw : Kw)
    (h1 : ∀ k ∈ [Key.matrix, .iterative, .method, .tol, .atol, .maxiter, .precM, .restart, .solveMethod, .solver, .qgt, .diagShift], get kw k = none) :
    srLazy base pid diagShift restart kw = .ok
      { qgt := some objOTF, solver := .withKw base kw, diagShift := diagShift, solverRestart := restart, extra := kw } := by
  have hk : ∀ k ∈ [Key.matrix, .iterative, .method, .tol, .atol, .maxiter, .precM, .restart, .solveMethod, .qgt],
      get ((Key.solver, Val.obj pid) :: (Key.diagShift, diagShift) :: kw) k = none := by
    intro k hk
    rw [get_cons, get_cons]
    have e := h1 k (by revert hk; revert k; decide)
    have n1 : Key.solver ≠ k := by rintro rfl; revert hk; decide
    have n2 : Key.diagShift ≠ k := by rintro rfl; revert hk; decide
    rw [if_neg n1, if_neg n2, e]
  unfold srLazy
  rw [h1 .solver (by decide)]
  unfold SR.buildSR
  rw [hk .matrix (by decide)]
  have ho : SR.oldApi [objOTF] ((Key.solver, Val.obj pid) :: (Key.diagShift, diagShift) :: kw) = false := by
    unfold SR.oldApi
    rw [Bool.or_eq_false_iff, Bool.or_eq_false_iff]
    refine ⟨⟨?_, rfl⟩, rfl⟩
    rw [List.any_eq_false]
    intro k hk'
    rw [hk k (by revert hk'; revert k; decide)]
    simp
  rw [ho]
  have hs : SR.kwSolver ((Key.solver, Val.obj pid) :: (Key.diagShift, diagShift) :: kw) = some (.plain (.obj pid)) := by
    unfold SR.kwSolver
    rw [get_cons, if_pos rfl]
    rfl
  have hp : pop ((Key.solver, Val.obj pid) :: (Key.diagShift, diagShift) :: kw) .solver = (Key.diagShift, diagShift) :: kw := by
    rw [pop_cons, if_pos rfl, pop_cons, if_neg (by decide), pop_of_get_none _ _ (h1 .solver (by decide))]
  rw [hs, hp]
  have hq : get ((Key.diagShift, diagShift) :: kw) .qgt = none := by
    rw [get_cons, if_neg (by decide), h1 .qgt (by decide)]
  have hd : get ((Key.diagShift, diagShift) :: kw) .diagShift = some diagShift := by rw [get_cons, if_pos rfl]
  have hpp : pop (pop ((Key.diagShift, diagShift) :: kw) .diagShift) .qgt = kw := by
    rw [pop_cons, if_pos rfl, pop_of_get_none _ _ (h1 .diagShift (by decide)), pop_of_get_none _ _ (h1 .qgt (by decide))]
  simp [SR.sr, hq, hd, hpp]

/-- the whole call: one warning, a second one if `centered` is given (whatever its value), then the object. -/
theorem C242_lazy_call {σ : Type} (dedent : Msg → Msg) (name reason ct : Msg) (base : Val) (pid : Nat) (diagShift : Val) (restart : Bool) (kw : Kw) :
    WarnsOnce (message dedent false name (some reason)) (srLazyCall (σ := σ) dedent name reason ct base pid diagShift none restart kw)
      (srLazy base pid diagShift restart kw)
    ∧ ∀ c, ∃ b : Act σ Obj, WarnsThen (message dedent false name (some reason))
        (srLazyCall dedent name reason ct base pid diagShift (some c) restart kw) b
        ∧ WarnsOnce (dedent ct) b (srLazy base pid diagShift restart kw) := by
  refine ⟨warnsOnce_of_then (warnsThen_andThen _ _), ?_⟩
  intro c
  exact ⟨_, warnsThen_andThen _ _, warnsOnce_of_then (warnsThen_andThen _ _)⟩

/-- what the documentation of `SRLazyGMRES(diag_shift, max_iters, ...)` promises fails for every option of the solver:
    e.g. `SRLazyGMRES(maxiter=10)` uses CG instead of GMRES, the class QGTOnTheFly as diagonal shift and no tensor. -/
theorem C243_lazy_refuted :
    ¬ ∀ (base : Val) (pid : Nat) (diagShift : Val) (kw : Kw), 2 < pid → (∀ p ∈ kw, p.1 ∈ legacySolverKeys) →
      ∃ o, srLazy base pid diagShift false kw = .ok o ∧ (o.diagShift = diagShift ∨ o.qgt = some objOTF ∨ ∃ kw', o.solver = .withKw base kw') := by
  intro h
  obtain ⟨o, h1, h2⟩ := h objGMRES 3 (.scalar 1) [(.maxiter, .scalar 10)] (by decide) (by decide)
  have h3 : srLazy objGMRES 3 (.scalar 1) false [(.maxiter, .scalar 10)] = .ok
      { qgt := none, solver := .withKw objCG [(.maxiter, .scalar 10)], diagShift := objOTF, solverRestart := false,
        extra := [(.maxiter, .scalar 10)] } := by rfl
  rw [h3] at h1
  cases h1
  rcases h2 with h2 | h2 | ⟨kw', h2⟩
  · revert h2; decide
  · revert h2; decide
  · cases h2

/-- what does hold with at least one solver option (and nothing else): the object is built, with the *class* as diagonal shift, the tensor
    chosen automatically and conjugate gradients as solver, whatever was asked for. -/
theorem C243_lazy_partial (base : Val) (pid : Nat) (diagShift : Val) (restart : Bool) (kw : Kw) (hne : kw ≠ [])
    (hkw : ∀ p ∈ kw, p.1 ∈ legacySolverKeys) :
    srLazy base pid diagShift restart kw = .ok
      { qgt := none, solver := .withKw objCG kw, diagShift := objOTF, solverRestart := restart, extra := kw } := by
  have hget : ∀ k, k ∉ legacySolverKeys → get kw k = none := by
    intro k hk
    unfold SR.get
    rw [Option.map_eq_none_iff, List.find?_eq_none]
    intro p hp h
    simp only [decide_eq_true_eq] at h
    exact hk (h ▸ hkw p hp)
  obtain ⟨p, l, rfl⟩ : ∃ p l, kw = p :: l := by
    cases kw with
    | nil => exact absurd rfl hne
    | cons p l => exact ⟨p, l, rfl⟩
  generalize hK : p :: l = kw at *
  have hmem : p ∈ kw := by rw [← hK]; exact List.mem_cons_self
  unfold srLazy
  rw [hget .solver (by decide)]
  unfold SR.buildSR
  have hm : get ((Key.solver, Val.obj pid) :: (Key.diagShift, diagShift) :: kw) .matrix = none := by
    rw [get_cons, get_cons, if_neg (by decide), if_neg (by decide), hget _ (by decide)]
  have ho : SR.oldApi [objOTF] ((Key.solver, Val.obj pid) :: (Key.diagShift, diagShift) :: kw) = true := by
    unfold SR.oldApi
    rw [Bool.or_eq_true, Bool.or_eq_true]
    refine Or.inl (Or.inl ?_)
    rw [List.any_eq_true]
    refine ⟨p.1, List.mem_append_right _ (hkw p hmem), ?_⟩
    have hp := hkw p hmem
    rw [get_cons, get_cons, if_neg (by rintro h; rw [← h] at hp; revert hp; decide), if_neg (by rintro h; rw [← h] at hp; revert hp; decide)]
    unfold SR.get
    rw [Option.isSome_map, List.find?_isSome]
    exact ⟨p, hmem, by simp⟩
  rw [hm, ho]
  have hl : SR.legacyKw [objOTF] ((Key.solver, Val.obj pid) :: (Key.diagShift, diagShift) :: kw)
      = (Key.diagShift, objOTF) :: (Key.solver, Val.obj pid) :: kw := by
    simp [SR.legacyKw, put, pop_cons, pop_of_get_none _ _ (hget .diagShift (by decide))]
  have hi : pop ((Key.diagShift, objOTF) :: (Key.solver, Val.obj pid) :: kw) .iterative
      = (Key.diagShift, objOTF) :: (Key.solver, Val.obj pid) :: kw := by
    simp [pop_cons, pop_of_get_none _ _ (hget .iterative (by decide))]
  have hme : get ((Key.diagShift, objOTF) :: (Key.solver, Val.obj pid) :: kw) .method = none := by
    simp [get_cons, hget .method (by decide)]
  have hpm : pop ((Key.diagShift, objOTF) :: (Key.solver, Val.obj pid) :: kw) .method
      = (Key.diagShift, objOTF) :: (Key.solver, Val.obj pid) :: kw := by
    simp [pop_cons, pop_of_get_none _ _ (hget .method (by decide))]
  have hfil : ((Key.diagShift, objOTF) :: (Key.solver, Val.obj pid) :: kw).filter (fun p => p.1 ∈ legacySolverKeys) = kw := by
    rw [List.filter_cons_of_neg (by decide), List.filter_cons_of_neg (by simp [legacySolverKeys]), List.filter_eq_self]
    intro q hq
    exact decide_eq_true (hkw q hq)
  have hps : pop ((Key.diagShift, objOTF) :: (Key.solver, Val.obj pid) :: kw) .solver = (Key.diagShift, objOTF) :: kw := by
    simp [pop_cons, pop_of_get_none _ _ (hget .solver (by decide))]
  have hls : SR.legacySolver ((Key.diagShift, objOTF) :: (Key.solver, Val.obj pid) :: kw) = .ok objCG := by
    rw [SR.legacySolver, hme]
  simp only [hl, hi, hls, hpm, hfil, hps, if_neg hne]
  simp [SR.sr, get_cons, pop_cons, hget .qgt (by decide), pop_of_get_none _ _ (hget .diagShift (by decide)),
    pop_of_get_none _ _ (hget .qgt (by decide))]

/-- and the tensor cannot be made from it: every solver option stays among the arguments of the tensor (a TypeError for each of the three). -/
theorem C243_lazy_unusable (k : SR.Kind) (diagShift : Val) (kw : Kw) (hne : kw ≠ []) (hkw : ∀ p ∈ kw, p.1 ∈ legacySolverKeys) :
    SR.construct k ((Key.diagShift, diagShift) :: kw) = .error .typeError := by
  have hget : ∀ k, k ∉ legacySolverKeys → get kw k = none := by
    intro k hk
    unfold SR.get
    rw [Option.map_eq_none_iff, List.find?_eq_none]
    intro p hp h
    simp only [decide_eq_true_eq] at h
    exact hk (h ▸ hkw p hp)
  obtain ⟨p, hp⟩ := List.exists_mem_of_ne_nil kw hne
  have hpk := hkw p hp
  have hn : ∀ l : List Key, (∀ k ∈ legacySolverKeys, k ∉ l) →
      ((Key.diagShift, diagShift) :: kw).all (fun p => decide (p.1 ∈ l)) = false := by
    intro l hl
    rw [List.all_eq_false]
    exact ⟨p, List.mem_cons_of_mem _ hp, by simpa using hl _ hpk⟩
  have h1 := hn [Key.diagShift] (by decide)
  have h2 := hn [Key.diagShift, Key.mode, Key.holomorphic, Key.rescaleShift] (by decide)
  simp only [List.mem_singleton] at h1
  cases k
  · simp only [SR.construct, h1, Bool.false_eq_true, if_false]
  · simp only [SR.construct, h2, Bool.false_eq_true, if_false, get_cons, hget .mode (by decide)]
    simp
  · simp only [SR.construct, h2, Bool.false_eq_true, if_false, get_cons, hget .mode (by decide)]
    simp

example : srLazy objCG 3 (.scalar (1 / 10)) false [] = .ok
    { qgt := some objOTF, solver := .withKw objCG [], diagShift := .scalar (1 / 10), solverRestart := false, extra := [] } :=
  C242_lazy _ _ _ _ _ (by decide)

/-! ## Names of activation functions -/

/-- whether `p` occurs in `m`, computed. -/
def occurs (p : Msg) : Msg → Bool
  | [] => p.isEmpty
  | c :: cs => p.isPrefixOf (c :: cs) || occurs p cs

theorem occurs_iff (p m : Msg) : occurs p m = true ↔ Mentions m p := by
  induction m with
  | nil =>
    simp only [occurs, Mentions]
    constructor
    · intro h
      exact ⟨[], [], by simpa using h⟩
    · rintro ⟨u, v, h⟩
      have h' := congrArg List.length h
      simp only [List.length_nil, List.length_append] at h'
      have : p.length = 0 := by omega
      simpa using this
  | cons c cs ih =>
    rw [occurs, Bool.or_eq_true, ih]
    constructor
    · rintro (h | ⟨u, v, h⟩)
      · obtain ⟨t, ht⟩ := List.isPrefixOf_iff_prefix.1 h
        exact ⟨[], t, by rw [List.nil_append, ht]⟩
      · exact ⟨c :: u, v, by rw [h]; rfl⟩
    · rintro ⟨u, v, h⟩
      cases u with
      | nil => exact Or.inl (List.isPrefixOf_iff_prefix.2 ⟨v, by rw [h, List.nil_append]⟩)
      | cons d us =>
        simp only [List.cons_append, List.cons.injEq] at h
        exact Or.inr ⟨us, v, h.2⟩

/-- the warning of `logtanh` and `logsinh` does not name the function that replaces them. -/
theorem C243_activation_refuted : ¬ ∀ a : Activation, Mentions a.reason a.new := by
  intro h
  have := (occurs_iff _ _).2 (h .tanh)
  revert this
  decide +kernel

/-- it does so for `logcosh` only. -/
theorem C243_activation_partial (a : Activation) : Mentions a.reason a.new ↔ a = .cosh := by
  rw [← occurs_iff]
  cases a <;> decide +kernel

end Verif.Depr
