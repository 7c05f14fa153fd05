import Verif.Lemmas.LatticeBuild
import Verif.Props.Lattice
import Mathlib.Data.List.Perm.Basic

/-! Lattices whose nearest pairs are given by a list of steps between cells. -/

set_option linter.unusedSectionVars false
set_option linter.unusedVariables false

namespace Verif.Lat
open Verif.Hilbert (Err)

/-- `v` lies one step `δ` of cells away from `u`, modulo the extent along periodic axes (the last entries, the sites within the
    cells, are not compared). -/
def Shifted : List Nat → List Bool → List Int → List Int → List Int → Prop
  | [], [], [_], [], [_] => True
  | e :: es, p :: ps, x :: xs, t :: ts, y :: ys =>
    (if p = true then (x + t) % (e : Int) = y else x + t = y) ∧ Shifted es ps xs ts ys
  | _, _, _, _, _ => False

/-- the site within the cell. -/
def lab (c : List Int) : Int := c.getLast?.getD 0

/-- the same without periodicity. -/
def Moved : List Int → List Int → List Int → Prop
  | [_], [], [_] => True
  | x :: xs, t :: ts, y :: ys => x + t = y ∧ Moved xs ts ys
  | _, _, _ => False

theorem moved_cons (x t y : Int) (xs ts ys : List Int) : Moved (x :: xs) (t :: ts) (y :: ys) ↔ x + t = y ∧ Moved xs ts ys := by
  rw [Moved]

theorem lab_cons (x : Int) (xs : List Int) (h : xs ≠ []) : lab (x :: xs) = lab xs := by
  cases xs with
  | nil => exact absurd rfl h
  | cons y ys => simp [lab, List.getLast?_cons_cons]

theorem shell_ne_nil (ext : List Nat) (pbc : List Bool) (nb : Nat) (c : List Int) (h : c ∈ shell ext pbc nb) : c ≠ [] := by
  rintro rfl
  have := cart_length _ _ h
  cases ext <;> cases pbc <;> simp [shellRanges] at this

theorem inner_ne_nil (ext : List Nat) (nb : Nat) (c : List Int) (h : c ∈ inner ext nb) : c ≠ [] := by
  rintro rfl
  have := cart_length _ _ h
  simp at this

theorem wrap_ne_nil (ext : List Nat) (c : List Int) (h : c ≠ []) : wrap ext c ≠ [] := by
  cases ext <;> cases c <;> simp_all [wrap]

theorem lab_wrap (ext : List Nat) (pbc : List Bool) (nb : Nat) (hlen : ext.length = pbc.length) (c : List Int)
    (h : c ∈ shell ext pbc nb) : lab (wrap ext c) = lab c := by
  induction ext generalizing pbc c with
  | nil => cases c <;> rfl
  | cons e es ih =>
    cases pbc with
    | nil => simp at hlen
    | cons p ps =>
      obtain ⟨x, xs, rfl, _, hxs⟩ := (mem_cart_cons _ _ _).1 h
      have hn := shell_ne_nil es ps nb xs hxs
      rw [wrap, lab_cons _ _ hn, lab_cons _ _ (wrap_ne_nil es xs hn), ih ps (by simpa using hlen) xs hxs]

theorem wrap_moved (ext : List Nat) (pbc : List Bool) (nb : Nat) (hlen : ext.length = pbc.length) (δ c c' : List Int)
    (hc : c ∈ shell ext pbc nb) (hc' : c' ∈ shell ext pbc nb) (h : Moved c δ c') :
    Shifted ext pbc (wrap ext c) δ (wrap ext c') := by
  induction ext generalizing pbc c c' δ with
  | nil =>
    cases pbc with
    | cons p ps => simp at hlen
    | nil =>
      obtain ⟨x, xs, rfl, hx, hxs⟩ := (mem_cart_cons _ _ _).1 hc
      obtain ⟨y, ys, rfl, hy, hys⟩ := (mem_cart_cons _ _ _).1 hc'
      rw [mem_cart_nil] at hxs hys
      subst hxs hys
      cases δ with
      | nil => trivial
      | cons t ts => simp [Moved] at h
  | cons e es ih =>
    cases pbc with
    | nil => simp at hlen
    | cons p ps =>
      obtain ⟨x, xs, rfl, hx, hxs⟩ := (mem_cart_cons _ _ _).1 hc
      obtain ⟨y, ys, rfl, hy, hys⟩ := (mem_cart_cons _ _ _).1 hc'
      have hn := shell_ne_nil es ps nb xs hxs
      cases δ with
      | nil =>
        cases xs with
        | nil => exact absurd rfl hn
        | cons a as => simp [Moved] at h
      | cons t ts =>
        obtain ⟨rfl, h2⟩ := (moved_cons _ _ _ _ _ _).1 h
        rw [wrap, wrap]
        refine ⟨?_, ih ps (by simpa using hlen) ts xs ys hxs hys h2⟩
        rw [mem_axisRange] at hx hy
        cases p with
        | false =>
          simp only [Bool.false_eq_true, if_false] at hx hy ⊢
          rw [Int.emod_eq_of_lt hx.1 hx.2, Int.emod_eq_of_lt hy.1 hy.2]
        | true => simp only [if_true]; rw [Int.emod_add_emod]

theorem unwrap_shifted (ext : List Nat) (pbc : List Bool) (nb : Nat) (hlen : ext.length = pbc.length)
    (u v δ : List Int) (hu : u ∈ inner ext nb) (hv : v ∈ inner ext nb) (hδ : ∀ t ∈ δ, -1 ≤ t ∧ t ≤ 1)
    (h : Shifted ext pbc u δ v) : ∃ c' ∈ shell ext pbc nb, Moved u δ c' ∧ wrap ext c' = v ∧ lab c' = lab v := by
  induction ext generalizing pbc u v δ with
  | nil =>
    cases pbc with
    | cons p ps => simp at hlen
    | nil =>
      obtain ⟨x, xs, rfl, hx, hxs⟩ := (mem_cart_cons _ _ _).1 hu
      obtain ⟨y, ys, rfl, hy, hys⟩ := (mem_cart_cons _ _ _).1 hv
      rw [mem_cart_nil] at hxs hys
      subst hxs hys
      cases δ with
      | nil => exact ⟨[y], hv, trivial, rfl, rfl⟩
      | cons t ts => simp [Shifted] at h
  | cons e es ih =>
    cases pbc with
    | nil => simp at hlen
    | cons p ps =>
      have hl : es.length = ps.length := by simpa using hlen
      obtain ⟨x, xs, rfl, hx, hxs⟩ := (mem_cart_cons _ _ _).1 hu
      obtain ⟨y, ys, rfl, hy, hys⟩ := (mem_cart_cons _ _ _).1 hv
      cases δ with
      | nil => simp [Shifted] at h
      | cons t ts =>
        obtain ⟨h1, h2⟩ := h
        obtain ⟨c', g1, g2, g3, g4⟩ := ih ps hl xs ys ts hxs hys (fun s hs => hδ s (List.mem_cons_of_mem _ hs)) h2
        have ht := hδ t (by simp)
        rw [mem_upto] at hx hy
        have hn := shell_ne_nil es ps nb c' g1
        refine ⟨(x + t) :: c', (mem_cart_cons _ _ _).2 ⟨_, _, rfl, ?_, g1⟩, (moved_cons _ _ _ _ _ _).2 ⟨rfl, g2⟩, ?_, ?_⟩
        · rw [mem_axisRange]
          cases p with
          | false => simp only [Bool.false_eq_true, if_false] at h1 ⊢; omega
          | true => simp only [if_true]; omega
        · rw [wrap, g3]
          congr 1
          cases p with
          | false =>
            simp only [Bool.false_eq_true, if_false] at h1
            rw [h1, Int.emod_eq_of_lt hy.1 hy.2]
          | true => simpa using h1
        · rw [lab_cons _ _ hn, lab_cons _ _ (inner_ne_nil es nb ys hys), g4]

section
variable (near : List Int → List Int → Option Int) (hsym : ∀ a b, near a b = near b a) (hirr : ∀ a, near a a = none)
include hsym hirr

/-- the edges of a lattice whose nearest pairs are given by steps. -/
theorem steps_spec (ext : List Nat) (pbc : List Bool) (nb : Nat) (hlen : ext.length = pbc.length)
    (hpos : ∀ e ∈ ext, 0 < e) (hnb : 0 < nb) (S : Int → Int → List (List Int))
    (hS : ∀ q q' δ, δ ∈ S q q' → ∀ t ∈ δ, -1 ≤ t ∧ t ≤ 1)
    (hcl : ∀ c ∈ shell ext pbc nb, ∀ c' ∈ shell ext pbc nb,
      (Closest near (shell ext pbc nb) c c' ↔ ∃ δ ∈ S (lab c) (lab c'), Moved c δ c'))
    (hall : ∀ u ∈ inner ext nb, ∃ c ∈ shell ext pbc nb, ∃ δ ∈ S (lab u) (lab c), Moved u δ c) :
    ∃ L, mkLattice ext pbc nb near = .ok L ∧ L.basisCoords = inner ext nb ∧ Simple L.edges
      ∧ (∀ e ∈ L.edges, e.1 < L.nNodes ∧ e.2 < L.nNodes)
      ∧ ∀ (a b : Nat) (u v : List Int), L.basisCoords[a]? = some u → L.basisCoords[b]? = some v →
        (has L.edges a b ↔ u ≠ v ∧ ∃ δ ∈ S (lab u) (lab v), Shifted ext pbc u δ v) := by
  obtain ⟨L, h1, h2, h3, h4, h5⟩ := mkLattice_spec near hsym hirr ext pbc nb hlen hpos hnb (by
    intro u hu
    obtain ⟨c, hc, h⟩ := hall u hu
    exact ⟨c, hc, (hcl u ((inner_subset ext pbc nb hlen u).1 hu).1 c hc).2 h⟩)
  refine ⟨L, h1, h2, h3, h4, ?_⟩
  intro a b u v hu hv
  have hum : u ∈ inner ext nb := by rw [← h2]; exact List.mem_of_getElem? hu
  have hvm : v ∈ inner ext nb := by rw [← h2]; exact List.mem_of_getElem? hv
  rw [h5 a b u v hu hv]
  refine and_congr_right fun _ => ?_
  unfold TrueNeighbour
  constructor
  · rintro ⟨c, hc, c', hc', _, hc1, rfl, rfl⟩
    obtain ⟨δ, hδ, hm⟩ := (hcl c hc c' hc').1 hc1
    refine ⟨δ, ?_, wrap_moved ext pbc nb hlen δ c c' hc hc' hm⟩
    rw [lab_wrap ext pbc nb hlen c hc, lab_wrap ext pbc nb hlen c' hc']
    exact hδ
  · rintro ⟨δ, hδ, hs⟩
    have hus := (inner_subset ext pbc nb hlen u).1 hum
    obtain ⟨c', g1, g2, g3, g4⟩ := unwrap_shifted ext pbc nb hlen u v δ hum hvm (hS _ _ δ hδ) hs
    refine ⟨u, hus.1, c', g1, Or.inl hus.2, (hcl u hus.1 c' g1).2 ⟨δ, ?_, g2⟩, wrap_inside ext u hus.2, g3⟩
    rw [g4]
    exact hδ

end

/-! ## Number of neighbours on a large torus -/

/-- the site `q` of the cell `δ` away. -/
def target : List Nat → List Int → List Int → Int → List Int
  | e :: es, x :: xs, t :: ts, q => ((x + t) % (e : Int)) :: target es xs ts q
  | _, _, _, q => [q]

theorem target_mem (ext : List Nat) (nb : Nat) (hpos : ∀ e ∈ ext, 0 < e) (u δ : List Int) (q : Int) (hu : u ∈ inner ext nb)
    (hq : q ∈ upto nb) (hδ : δ.length = ext.length) : target ext u δ q ∈ inner ext nb := by
  induction ext generalizing u δ with
  | nil => exact (mem_cart_cons _ _ _).2 ⟨q, [], by cases u <;> simp [target], hq, by simp [mem_cart_nil]⟩
  | cons e es ih =>
    obtain ⟨x, xs, rfl, _, hxs⟩ := (mem_cart_cons _ _ _).1 hu
    cases δ with
    | nil => simp at hδ
    | cons t ts =>
      have he : (0 : Int) < e := by exact_mod_cast hpos e (by simp)
      refine (mem_cart_cons _ _ _).2 ⟨_, _, rfl, ?_, ih (fun e he => hpos e (List.mem_cons_of_mem _ he)) xs ts hxs
        (by simpa using hδ)⟩
      exact (mem_upto e _).2 ⟨Int.emod_nonneg _ (by omega), Int.emod_lt_of_pos _ he⟩

theorem target_ne_nil (ext : List Nat) (u δ : List Int) (q : Int) : target ext u δ q ≠ [] := by
  unfold target; split <;> simp

theorem lab_target (ext : List Nat) (u δ : List Int) (q : Int) : lab (target ext u δ q) = q := by
  induction ext generalizing u δ with
  | nil => simp [target, lab]
  | cons e es ih =>
    cases u with
    | nil => simp [target, lab]
    | cons x xs =>
      cases δ with
      | nil => simp [target, lab]
      | cons t ts => rw [target, lab_cons _ _ (target_ne_nil _ _ _ _), ih]

theorem shifted_iff_target (ext : List Nat) (nb : Nat) (u v δ : List Int) (hu : u ∈ inner ext nb) (hv : v ∈ inner ext nb)
    (hδ : δ.length = ext.length) :
    Shifted ext (ext.map fun _ => true) u δ v ↔ v = target ext u δ (lab v) := by
  induction ext generalizing u v δ with
  | nil =>
    obtain ⟨x, xs, rfl, hx, hxs⟩ := (mem_cart_cons _ _ _).1 hu
    obtain ⟨y, ys, rfl, hy, hys⟩ := (mem_cart_cons _ _ _).1 hv
    rw [mem_cart_nil] at hxs hys
    subst hxs hys
    cases δ with
    | nil => simp [Shifted, target, lab]
    | cons t ts => simp at hδ
  | cons e es ih =>
    obtain ⟨x, xs, rfl, hx, hxs⟩ := (mem_cart_cons _ _ _).1 hu
    obtain ⟨y, ys, rfl, hy, hys⟩ := (mem_cart_cons _ _ _).1 hv
    cases δ with
    | nil => simp at hδ
    | cons t ts =>
      rw [List.map_cons, Shifted, target, lab_cons _ _ (inner_ne_nil es nb ys hys), List.cons.injEq]
      rw [ih xs ys ts hxs hys (by simpa using hδ)]
      simp only [if_true]
      constructor
      · rintro ⟨h1, h2⟩; exact ⟨h1.symm, h2⟩
      · rintro ⟨h1, h2⟩; exact ⟨h1.symm, h2⟩

theorem emod_step_inj (e : Nat) (he : 3 ≤ e) (x s t : Int) (hs : -1 ≤ s ∧ s ≤ 1) (ht : -1 ≤ t ∧ t ≤ 1)
    (h : (x + s) % (e : Int) = (x + t) % (e : Int)) : s = t := by
  have := Int.emod_emod_of_dvd (x + s - (x + t)) (dvd_refl (e : Int))
  have h1 : (e : Int) ∣ (x + s) - (x + t) := Int.dvd_of_emod_eq_zero (Int.emod_eq_emod_iff_emod_sub_eq_zero.1 h)
  obtain ⟨k, hk⟩ := h1
  have hk0 : k = 0 := by
    by_contra hne
    rcases lt_or_gt_of_ne hne with h2 | h2
    · have : (e : Int) * k ≤ e * (-1) := mul_le_mul_of_nonneg_left (by omega) (by omega)
      omega
    · have : (e : Int) * 1 ≤ e * k := mul_le_mul_of_nonneg_left (by omega) (by omega)
      omega
  subst hk0
  omega

theorem target_inj (ext : List Nat) (hext : ∀ e ∈ ext, 3 ≤ e) (u δ δ' : List Int) (q q' : Int) (hu : ext.length < u.length)
    (hδ : δ.length = ext.length) (hδ' : δ'.length = ext.length) (hs : ∀ t ∈ δ, -1 ≤ t ∧ t ≤ 1)
    (hs' : ∀ t ∈ δ', -1 ≤ t ∧ t ≤ 1) (h : target ext u δ q = target ext u δ' q') : δ = δ' ∧ q = q' := by
  induction ext generalizing u δ δ' with
  | nil =>
    rw [List.length_nil, List.length_eq_zero_iff] at hδ hδ'
    subst hδ hδ'
    simpa [target] using h
  | cons e es ih =>
    cases u with
    | nil => simp at hu
    | cons x xs =>
      cases δ with
      | nil => simp at hδ
      | cons t ts =>
        cases δ' with
        | nil => simp at hδ'
        | cons s ss =>
          rw [target, target, List.cons.injEq] at h
          obtain ⟨h1, h2⟩ := ih (fun e he => hext e (List.mem_cons_of_mem _ he)) xs ts ss (by simpa using hu)
            (by simpa using hδ) (by simpa using hδ') (fun t ht => hs t (List.mem_cons_of_mem _ ht))
            (fun t ht => hs' t (List.mem_cons_of_mem _ ht)) h.2
          have h3 := emod_step_inj e (hext e (by simp)) x t s (hs t (by simp)) (hs' s (by simp)) h.1
          exact ⟨by rw [h1, h3], h2⟩

theorem target_zero (ext : List Nat) (nb : Nat) (u : List Int) (hu : u ∈ inner ext nb) :
    target ext u (ext.map fun _ => 0) (lab u) = u := by
  induction ext generalizing u with
  | nil =>
    obtain ⟨x, xs, rfl, hx, hxs⟩ := (mem_cart_cons _ _ _).1 hu
    rw [mem_cart_nil] at hxs
    subst hxs
    simp [target, lab]
  | cons e es ih =>
    obtain ⟨x, xs, rfl, hx, hxs⟩ := (mem_cart_cons _ _ _).1 hu
    have hx' := (mem_upto e x).1 hx
    rw [List.map_cons, target, lab_cons _ _ (inner_ne_nil es nb xs hxs), ih xs hxs, add_zero,
      Int.emod_eq_of_lt hx'.1 hx'.2]

theorem lab_mem (ext : List Nat) (nb : Nat) (u : List Int) (hu : u ∈ inner ext nb) : lab u ∈ upto nb := by
  induction ext generalizing u with
  | nil =>
    obtain ⟨x, xs, rfl, hx, hxs⟩ := (mem_cart_cons _ _ _).1 hu
    rw [mem_cart_nil] at hxs
    subst hxs
    exact hx
  | cons e es ih =>
    obtain ⟨x, xs, rfl, hx, hxs⟩ := (mem_cart_cons _ _ _).1 hu
    rw [lab_cons _ _ (inner_ne_nil es nb xs hxs)]
    exact ih xs hxs

open Classical in
/-- the number of sites connected to the site number `a`. -/
noncomputable def degree (L : Lattice) (a : Nat) : Nat := ((List.range L.nNodes).filter fun b => decide (has L.edges a b)).length

/-- on a torus of at least three cells along each axis, all steps lead to different sites. -/
theorem steps_degree (L : Lattice) (ext : List Nat) (nb : Nat) (hext : ∀ e ∈ ext, 3 ≤ e) (S : Int → Int → List (List Int))
    (hS : ∀ q q' δ, δ ∈ S q q' → δ.length = ext.length ∧ ∀ t ∈ δ, -1 ≤ t ∧ t ≤ 1) (hSn : ∀ q q', (S q q').Nodup)
    (hS0 : ∀ q, (ext.map fun _ => (0 : Int)) ∉ S q q) (hc : L.basisCoords = inner ext nb)
    (hL : ∀ (a b : Nat) (u v : List Int), L.basisCoords[a]? = some u → L.basisCoords[b]? = some v →
        (has L.edges a b ↔ u ≠ v ∧ ∃ δ ∈ S (lab u) (lab v), Shifted ext (ext.map fun _ => true) u δ v))
    (a : Nat) (u : List Int) (hu : L.basisCoords[a]? = some u) :
    degree L a = ((upto nb).map fun q => (S (lab u) q).length).sum := by
  classical
  have hpos : ∀ e ∈ ext, 0 < e := fun e he => by have := hext e he; omega
  have hum : u ∈ inner ext nb := by rw [← hc]; exact List.mem_of_getElem? hu
  have hul : ext.length < u.length := by rw [cart_length _ _ hum]; simp
  set nbrs := (upto nb).flatMap fun q => (S (lab u) q).map fun δ => target ext u δ q with hnb
  have hadj : ∀ v ∈ inner ext nb, ((u ≠ v ∧ ∃ δ ∈ S (lab u) (lab v), Shifted ext (ext.map fun _ => true) u δ v) ↔ v ∈ nbrs) := by
    intro v hv
    rw [hnb, List.mem_flatMap]
    constructor
    · rintro ⟨_, δ, hδ, hs⟩
      refine ⟨lab v, lab_mem ext nb v hv, List.mem_map.2 ⟨δ, hδ, ?_⟩⟩
      exact ((shifted_iff_target ext nb u v δ hum hv (hS _ _ δ hδ).1).1 hs).symm
    · rintro ⟨q, hq, hm⟩
      obtain ⟨δ, hδ, rfl⟩ := List.mem_map.1 hm
      have hl := hS _ _ δ hδ
      refine ⟨?_, δ, by rw [lab_target]; exact hδ, (shifted_iff_target ext nb u _ δ hum hv hl.1).2 (by rw [lab_target])⟩
      intro he
      have h0 := target_zero ext nb u hum
      have h1 := target_inj ext hext u (ext.map fun _ => 0) δ (lab u) q hul (by simp) hl.1 (by
        intro t ht
        obtain ⟨_, _, rfl⟩ := List.mem_map.1 ht
        omega) hl.2 (by rw [h0]; exact he)
      apply hS0 (lab u)
      rw [h1.1]
      rw [h1.2]
      rw [h1.2] at hδ
      exact hδ
  have hnd : nbrs.Nodup := by
    rw [hnb, List.nodup_flatMap]
    refine ⟨?_, ?_⟩
    · intro q _
      refine List.Nodup.map_on ?_ (hSn _ _)
      intro x hx y hy he
      exact (target_inj ext hext u x y q q hul (hS _ _ x hx).1 (hS _ _ y hy).1 (hS _ _ x hx).2 (hS _ _ y hy).2 he).1
    · refine (upto_nodup nb).imp ?_
      intro q q' hne
      rw [Function.onFun, List.disjoint_left]
      intro w hw hw'
      obtain ⟨x, _, rfl⟩ := List.mem_map.1 hw
      obtain ⟨y, _, he⟩ := List.mem_map.1 hw'
      apply hne
      have := congrArg lab he
      rw [lab_target, lab_target] at this
      exact this.symm
  have hsub : ∀ v ∈ nbrs, v ∈ inner ext nb := by
    intro v hv
    rw [hnb, List.mem_flatMap] at hv
    obtain ⟨q, hq, hm⟩ := hv
    obtain ⟨δ, hδ, rfl⟩ := List.mem_map.1 hm
    exact target_mem ext nb hpos u δ q hum hq (hS _ _ δ hδ).1
  have h1 : degree L a = (L.basisCoords.filter fun v => decide (v ∈ nbrs)).length := by
    rw [degree, Lattice.nNodes, ← map_filter_idx L.basisCoords [] (fun b => decide (has L.edges a b)), List.length_map]
    intro i v hi
    have hv : v ∈ inner ext nb := by rw [← hc]; exact List.mem_of_getElem? hi
    rw [decide_eq_decide, hL a i u v hu hi, hadj v hv]
  have h2 : (L.basisCoords.filter fun v => decide (v ∈ nbrs)).Perm nbrs := by
    rw [List.perm_ext_iff_of_nodup]
    · intro v
      rw [List.mem_filter, decide_eq_true_eq, hc]
      exact ⟨fun h => h.2, fun h => ⟨hsub v h, h⟩⟩
    · rw [hc]; exact (inner_nodup ext nb).filter _
    · exact hnd
  rw [h1, h2.length_eq, hnb, List.length_flatMap]
  congr 1
  apply List.map_congr_left
  intro q _
  rw [List.length_map]

end Verif.Lat
