import Verif.Spec.NearestGraph
import Verif.Props.CharTable

/-! From quadratic forms to nearest-neighbour graphs. -/

set_option linter.unusedSectionVars false
set_option linter.unusedVariables false

namespace Verif.CommonLat
open Verif.Lat
open Verif.Hilbert (Err)

theorem dist_comm {d : Nat} (g : Geometry d) (a b : List Int) : dist g a b = dist g b a := by
  unfold dist
  congr 1
  refine Finset.sum_congr rfl fun j _ => ?_
  ring

theorem dist_self {d : Nat} (g : Geometry d) (a : List Int) : dist g a a = 0 := by
  unfold dist
  simp

theorem geomNear_comm {d : Nat} (g : Geometry d) (atol : ℝ) (a b : List Int) : geomNear g atol a b = geomNear g atol b a := by
  unfold geomNear
  rw [dist_comm g a b]

theorem geomNear_self {d : Nat} (g : Geometry d) (atol : ℝ) (a : List Int) : geomNear g atol a a = none := by
  unfold geomNear
  rw [dist_self, if_neg (by simp)]

theorem shell_site (ext : List Nat) (pbc : List Bool) (nb : Nat) (hlen : ext.length = pbc.length) (c : List Int)
    (hc : c ∈ shell ext pbc nb) : IsSite ext.length nb c := by
  induction ext generalizing pbc c with
  | nil =>
    cases pbc with
    | cons p ps => simp at hlen
    | nil =>
      obtain ⟨x, xs, rfl, hx, hxs⟩ := (mem_cart_cons _ _ _).1 hc
      rw [mem_cart_nil] at hxs
      subst hxs
      have := (mem_upto nb x).1 hx
      exact ⟨rfl, this.1, this.2⟩
  | cons e es ih =>
    cases pbc with
    | nil => simp at hlen
    | cons p ps =>
      obtain ⟨x, xs, rfl, hx, hxs⟩ := (mem_cart_cons _ _ _).1 hc
      obtain ⟨h1, h2, h3⟩ := ih ps (by simpa using hlen) xs hxs
      rw [IsSite, lab_cons _ _ (shell_ne_nil es ps nb xs hxs)]
      exact ⟨by simp [h1], h2, h3⟩

theorem image_iff (ext : List Nat) (pbc : List Bool) (nb : Nat) (hlen : ext.length = pbc.length) (u v δ : List Int)
    (hu : u ∈ inner ext nb) (hv : v ∈ inner ext nb) :
    Shifted ext pbc u δ v ↔ ∃ v', Image ext pbc v v' ∧ Moved u δ v' := by
  induction ext generalizing pbc u v δ with
  | nil =>
    cases pbc with
    | cons p ps => simp at hlen
    | nil =>
      obtain ⟨x, xs, rfl, hx, hxs⟩ := (mem_cart_cons _ _ _).1 hu
      obtain ⟨y, ys, rfl, hy, hys⟩ := (mem_cart_cons _ _ _).1 hv
      rw [mem_cart_nil] at hxs hys
      subst hxs hys
      cases δ with
      | nil => exact ⟨fun _ => ⟨[y], rfl, trivial⟩, fun _ => trivial⟩
      | cons t ts =>
        simp only [Shifted, false_iff]
        rintro ⟨v', h1, h2⟩
        rcases v' with _ | ⟨z, _ | ⟨w, ws⟩⟩ <;> simp [Image, Moved] at h1 h2
  | cons e es ih =>
    cases pbc with
    | nil => simp at hlen
    | cons p ps =>
      obtain ⟨x, xs, rfl, hx, hxs⟩ := (mem_cart_cons _ _ _).1 hu
      obtain ⟨y, ys, rfl, hy, hys⟩ := (mem_cart_cons _ _ _).1 hv
      have hn := inner_ne_nil es nb xs hxs
      have hy' := (mem_upto e y).1 hy
      cases δ with
      | nil =>
        simp only [Shifted, false_iff]
        rintro ⟨v', h1, h2⟩
        obtain ⟨a, as, rfl⟩ := List.exists_cons_of_ne_nil hn
        rcases v' with _ | ⟨z, zs⟩ <;> simp [Moved] at h2
      | cons t ts =>
        rw [Shifted, ih ps (by simpa using hlen) xs ys ts hxs hys]
        constructor
        · rintro ⟨h1, v', h2, h3⟩
          refine ⟨(x + t) :: v', ⟨?_, h2⟩, (moved_cons _ _ _ _ _ _).2 ⟨rfl, h3⟩⟩
          cases p with
          | false => simpa using h1
          | true =>
            simp only [if_true] at h1 ⊢
            refine ⟨(x + t) / (e : Int), ?_⟩
            have := Int.emod_add_mul_ediv (x + t) (e : Int)
            rw [← h1]
            linarith
        · rintro ⟨v', h2, h3⟩
          cases v' with
          | nil => simp [Image] at h2
          | cons z zs =>
            rw [Image] at h2
            obtain ⟨h4, h5⟩ := (moved_cons _ _ _ _ _ _).1 h3
            refine ⟨?_, zs, h2.2, h5⟩
            cases p with
            | false =>
              have := h2.1
              simp only [Bool.false_eq_true, if_false] at this ⊢
              rw [h4, this]
            | true =>
              have := h2.1
              simp only [if_true] at this ⊢
              obtain ⟨n, hn⟩ := this
              rw [h4, hn, Int.add_mul_emod_self_right, Int.emod_eq_of_lt hy'.1 hy'.2]

theorem image_site (ext : List Nat) (pbc : List Bool) (nb : Nat) (v v' : List Int)
    (hv : IsSite ext.length nb v) (h : Image ext pbc v v') : IsSite ext.length nb v' ∧ lab v' = lab v := by
  induction ext generalizing pbc v v' with
  | nil =>
    rcases pbc with _ | ⟨p, ps⟩ <;> rcases v with _ | ⟨y, _ | ⟨w, ws⟩⟩ <;> rcases v' with _ | ⟨y', _ | ⟨w', ws'⟩⟩ <;>
      simp [Image] at h
    subst h
    exact ⟨hv, rfl⟩
  | cons e es ih =>
    rcases pbc with _ | ⟨p, ps⟩
    · simp [Image] at h
    · rcases v with _ | ⟨y, ys⟩
      · simp [Image] at h
      · rcases v' with _ | ⟨y', ys'⟩
        · simp [Image] at h
        · rw [Image] at h
          have hl : ys.length = es.length + 1 := by simpa using hv.1
          have hne : ys ≠ [] := by rintro rfl; simp at hl
          have hl2 := hv.2
          rw [lab_cons _ _ hne] at hl2
          obtain ⟨h1, h2⟩ := ih ps ys ys' ⟨hl, hl2⟩ h.2
          have hne' : ys' ≠ [] := by rintro rfl; have := h1.1; simp at this
          refine ⟨⟨?_, ?_⟩, ?_⟩
          · rw [List.length_cons, h1.1, List.length_cons]
          · rw [lab_cons _ _ hne']; exact h1.2
          · rw [lab_cons _ _ hne', lab_cons _ _ hne, h2]

/-- integer data of a lattice: `N` times the squared distance is the integer `k`, whose least nonzero value is `k0`, taken exactly
    for the listed steps. -/
structure Form {d : Nat} (g : Geometry d) (N k0 : Nat) (S : Int → Int → List (List Int)) where
  k : List Int → List Int → Int
  hN : 0 < N
  hk0 : 0 < k0
  gap : 4 * N * (k0 + 1) < 3326400 ^ 2
  value : ∀ c c', IsSite d g.offsets.length c → IsSite d g.offsets.length c' →
    (N : ℝ) * ∑ j : Fin d, (position g c j - position g c' j) ^ 2 = (k c c' : ℝ)
  least : ∀ c c', IsSite d g.offsets.length c → IsSite d g.offsets.length c' → c ≠ c' → (k0 : Int) ≤ k c c'
  steps : ∀ c c', IsSite d g.offsets.length c → IsSite d g.offsets.length c' →
    (k c c' = (k0 : Int) ↔ ∃ δ ∈ S (lab c) (lab c'), Moved c δ c')

section
variable {d : Nat} {g : Geometry d} {N k0 : Nat} {S : Int → Int → List (List Int)}

theorem Form.dist_eq (F : Form g N k0 S) (c c' : List Int) (hc : IsSite d g.offsets.length c)
    (hc' : IsSite d g.offsets.length c') : dist g c c' = Real.sqrt ((F.k c c' : ℝ) / N) := by
  unfold dist
  congr 1
  have hN : (N : ℝ) ≠ 0 := by exact_mod_cast F.hN.ne'
  rw [← F.value c c' hc hc']
  field_simp

theorem Form.dist_iff (F : Form g N k0 S) (c c' : List Int) (hc : IsSite d g.offsets.length c)
    (hc' : IsSite d g.offsets.length c') : dist g c c' = Real.sqrt ((k0 : ℝ) / N) ↔ F.k c c' = k0 := by
  rw [F.dist_eq c c' hc hc']
  have hN : (0 : ℝ) < N := by exact_mod_cast F.hN
  have hk : 0 ≤ (F.k c c' : ℝ) := by
    rw [← F.value c c' hc hc']
    exact mul_nonneg hN.le (Finset.sum_nonneg fun _ _ => sq_nonneg _)
  rw [Real.sqrt_inj (div_nonneg hk hN.le) (div_nonneg (Nat.cast_nonneg _) hN.le), div_left_inj' hN.ne']
  exact_mod_cast Iff.rfl

theorem Form.least_dist (F : Form g N k0 S) (c c' : List Int) (hc : IsSite d g.offsets.length c)
    (hc' : IsSite d g.offsets.length c') (hne : c ≠ c') : Real.sqrt ((k0 : ℝ) / N) ≤ dist g c c' := by
  rw [F.dist_eq c c' hc hc']
  apply Real.sqrt_le_sqrt
  have hN : (0 : ℝ) < N := by exact_mod_cast F.hN
  rw [div_le_div_iff_of_pos_right hN]
  exact_mod_cast F.least c c' hc hc' hne

theorem Form.d0_pos (F : Form g N k0 S) : 0 < Real.sqrt ((k0 : ℝ) / N) := by
  have hN : (0 : ℝ) < N := by exact_mod_cast F.hN
  have hk : (0 : ℝ) < k0 := by exact_mod_cast F.hk0
  exact Real.sqrt_pos.2 (div_pos hk hN)

/-- the next distance is in a later bin. -/
theorem Form.bin (F : Form g N k0 S) (c c' : List Int) (hc : IsSite d g.offsets.length c)
    (hc' : IsSite d g.offsets.length c') (hne : c ≠ c')
    (h : comparable (dist g c c') ≤ comparable (Real.sqrt ((k0 : ℝ) / N))) : F.k c c' = k0 := by
  have h1 := F.least c c' hc hc' hne
  by_contra h2
  have h3 : (k0 : Int) + 1 ≤ F.k c c' := by omega
  have hN : (0 : ℝ) < N := by exact_mod_cast F.hN
  have hk : (0 : ℝ) < k0 := by exact_mod_cast F.hk0
  have h4 : Real.sqrt (((k0 : ℝ) + 1) / N) ≤ dist g c c' := by
    rw [F.dist_eq c c' hc hc']
    apply Real.sqrt_le_sqrt
    rw [div_le_div_iff_of_pos_right hN]
    exact_mod_cast h3
  have h5 := le_antisymm h (CharTab.comparable_mono (F.least_dist c c' hc hc' hne))
  have h6 := (abs_le.1 (CharTab.comparable_eq _ _ h5)).2
  set s := Real.sqrt ((k0 : ℝ) / N) with hs
  set t := Real.sqrt (((k0 : ℝ) + 1) / N) with ht
  have hs2 : s * s = (k0 : ℝ) / N := Real.mul_self_sqrt (by positivity)
  have ht2 : t * t = ((k0 : ℝ) + 1) / N := Real.mul_self_sqrt (by positivity)
  have hs0 : 0 ≤ s := Real.sqrt_nonneg _
  have ht0 : 0 < t := Real.sqrt_pos.2 (by positivity)
  have hst : s ≤ t := by
    apply Real.sqrt_le_sqrt
    rw [div_le_div_iff_of_pos_right hN]
    linarith
  have h7 : t - s ≤ 1 / 3326400 := by linarith
  have h8 : 1 / (N : ℝ) = (t - s) * (t + s) := by
    have : (t - s) * (t + s) = t * t - s * s := by ring
    rw [this, ht2, hs2]
    field_simp
    ring
  have h9 : 1 / (N : ℝ) ≤ (1 / 3326400) * (2 * t) := by
    rw [h8]
    exact mul_le_mul h7 (by linarith) (by linarith) (by norm_num)
  have h10 : (1 / (N : ℝ)) * (1 / N) ≤ ((1 / 3326400) * (2 * t)) * ((1 / 3326400) * (2 * t)) :=
    mul_le_mul h9 h9 (by positivity) (by positivity)
  have h11 : ((1 / 3326400 : ℝ) * (2 * t)) * ((1 / 3326400) * (2 * t)) = 4 * (t * t) / 3326400 ^ 2 := by ring
  rw [h11, ht2] at h10
  have h12 : (3326400 : ℝ) ^ 2 ≤ 4 * N * (k0 + 1) := by
    have h13 : (N : ℝ) * N * 3326400 ^ 2 * ((1 / (N : ℝ)) * (1 / N)) ≤
        (N : ℝ) * N * 3326400 ^ 2 * (4 * (((k0 : ℝ) + 1) / N) / 3326400 ^ 2) :=
      mul_le_mul_of_nonneg_left h10 (by positivity)
    have e1 : (N : ℝ) * N * 3326400 ^ 2 * ((1 / (N : ℝ)) * (1 / N)) = 3326400 ^ 2 := by field_simp
    have e2 : (N : ℝ) * N * 3326400 ^ 2 * (4 * (((k0 : ℝ) + 1) / N) / 3326400 ^ 2) = 4 * N * (k0 + 1) := by field_simp
    rw [e1, e2] at h13
    exact h13
  have := F.gap
  have h14 : ((3326400 ^ 2 : Nat) : ℝ) ≤ ((4 * N * (k0 + 1) : Nat) : ℝ) := by push_cast; norm_num at h12 ⊢; exact h12
  have h15 : 3326400 ^ 2 ≤ 4 * N * (k0 + 1) := by exact_mod_cast h14
  omega

theorem geomNear_some (atol : ℝ) (a b : List Int) (m : Int) (h : geomNear g atol a b = some m) :
    a ≠ b ∧ m = comparable (dist g a b) := by
  unfold geomNear at h
  split_ifs at h with hc
  refine ⟨?_, (Option.some.inj h).symm⟩
  rintro rfl
  rw [dist_self] at hc
  exact lt_irrefl _ hc.1

theorem Form.closest (F : Form g N k0 S) (atol : ℝ) (hcut : Real.sqrt ((k0 : ℝ) / N) ≤ cutoff g atol) (cs : List (List Int))
    (hcs : ∀ c ∈ cs, IsSite d g.offsets.length c)
    (hatt : ∃ c ∈ cs, ∃ c' ∈ cs, F.k c c' = k0) (c c' : List Int) (hc : c ∈ cs) (hc' : c' ∈ cs) :
    Closest (geomNear g atol) cs c c' ↔ ∃ δ ∈ S (lab c) (lab c'), Moved c δ c' := by
  have hsome : ∀ a ∈ cs, ∀ b ∈ cs, F.k a b = k0 → geomNear g atol a b = some (comparable (Real.sqrt ((k0 : ℝ) / N))) := by
    intro a ha b hb hk
    have hd := (F.dist_iff a b (hcs a ha) (hcs b hb)).2 hk
    unfold geomNear
    rw [hd, if_pos ⟨F.d0_pos, hcut⟩]
  rw [← F.steps c c' (hcs c hc) (hcs c' hc')]
  constructor
  · rintro ⟨m, h1, h2⟩
    obtain ⟨a, ha, b, hb, hab⟩ := hatt
    have h3 := h2 a ha b hb _ (hsome a ha b hb hab)
    obtain ⟨hne, rfl⟩ := geomNear_some atol c c' m h1
    exact F.bin c c' (hcs c hc) (hcs c' hc') hne h3
  · intro h
    refine ⟨_, hsome c hc c' hc' h, ?_⟩
    intro a ha b hb m' hm
    obtain ⟨hne, rfl⟩ := geomNear_some atol a b m' hm
    exact CharTab.comparable_mono (F.least_dist a b (hcs a ha) (hcs b hb) hne)

/-- the graph of a lattice with integer data. -/
theorem Form.graph (F : Form g N k0 S) (atol : ℝ) (hcut : Real.sqrt ((k0 : ℝ) / N) ≤ cutoff g atol)
    (ext : List Nat) (pbc : List Bool) (hd : ext.length = d) (hlen : ext.length = pbc.length) (hpos : ∀ e ∈ ext, 0 < e)
    (hnb : 0 < g.offsets.length)
    (hS : ∀ q q' δ, δ ∈ S q q' → δ.length = ext.length ∧ ∀ t ∈ δ, -1 ≤ t ∧ t ≤ 1) (hSn : ∀ q q', (S q q').Nodup)
    (hS0 : ∀ q, (ext.map fun _ => (0 : Int)) ∉ S q q)
    (hall : ∀ u ∈ inner ext g.offsets.length, ∃ c ∈ shell ext pbc g.offsets.length, ∃ δ ∈ S (lab u) (lab c), Moved u δ c) :
    ∃ L, mkGeom g atol ext pbc = .ok L ∧ NearestGraph g ext pbc L (Real.sqrt ((k0 : ℝ) / N))
      ∧ ((∀ e ∈ ext, 3 ≤ e) → (∀ p ∈ pbc, p = true) → ∀ (a : Nat) (u : List Int), L.basisCoords[a]? = some u →
        degree L a = ((upto g.offsets.length).map fun q => (S (lab u) q).length).sum) := by
  have hcs : ∀ c ∈ shell ext pbc g.offsets.length, IsSite d g.offsets.length c := fun c hc => by
    have := shell_site ext pbc g.offsets.length hlen c hc
    rw [hd] at this
    exact this
  have hin : ∀ u ∈ inner ext g.offsets.length, u ∈ shell ext pbc g.offsets.length := fun u hu =>
    ((inner_subset ext pbc g.offsets.length hlen u).1 hu).1
  have hex : ∃ u, u ∈ inner ext g.offsets.length := by
    have : (inner ext g.offsets.length).length ≠ 0 := by
      have hin2 : inner ext g.offsets.length = cart ((ext ++ [g.offsets.length]).map upto) := by
        rw [Lat.inner, List.map_append]; rfl
      rw [hin2, cart_upto_length, List.prod_append]
      have h1 : ext.prod ≠ 0 := by
        intro h
        have h0 := List.prod_eq_zero_iff.1 h
        exact absurd (hpos 0 h0) (by simp)
      simp [h1]
      exact List.length_pos_iff.1 hnb
    obtain ⟨u, us, h⟩ := List.exists_cons_of_ne_nil (fun h => this (by rw [h]; rfl) : inner ext g.offsets.length ≠ [])
    exact ⟨u, by rw [h]; simp⟩
  have hatt : ∃ c ∈ shell ext pbc g.offsets.length, ∃ c' ∈ shell ext pbc g.offsets.length, F.k c c' = k0 := by
    obtain ⟨u, hu⟩ := hex
    obtain ⟨c, hc, h⟩ := hall u hu
    exact ⟨u, hin u hu, c, hc, (F.steps u c (hcs u (hin u hu)) (hcs c hc)).2 h⟩
  have hcl : ∀ c ∈ shell ext pbc g.offsets.length, ∀ c' ∈ shell ext pbc g.offsets.length,
      (Closest (geomNear g atol) (shell ext pbc g.offsets.length) c c' ↔ ∃ δ ∈ S (lab c) (lab c'), Moved c δ c') :=
    fun c hc c' hc' => F.closest atol hcut _ hcs hatt c c' hc hc'
  obtain ⟨L, h1, h2, h3, h4, h5⟩ := steps_spec (geomNear g atol) (geomNear_comm g atol) (geomNear_self g atol) ext pbc
    g.offsets.length hlen hpos hnb S (fun q q' δ hδ => (hS q q' δ hδ).2) hcl hall
  obtain ⟨L', g1, g2, g3, g4, _, _, _⟩ := C34_numbering (geomNear g atol) (geomNear_comm g atol) (geomNear_self g atol) ext pbc
    g.offsets.length hlen hpos hnb (fun u hu => by
      obtain ⟨c, hc, h⟩ := hall u hu
      exact ⟨c, hc, (hcl u (hin u hu) c hc).2 h⟩)
  rw [h1] at g1
  obtain rfl := Except.ok.inj g1
  refine ⟨L, h1, ⟨g4, g3, g2, fun e he => ⟨h3.1 e he, h4 e he⟩, h3.2, ?_, F.d0_pos, fun c c' => F.least_dist c c'⟩, ?_⟩
  · intro a b u v hu hv
    have hum : u ∈ inner ext g.offsets.length := by rw [← h2]; exact List.mem_of_getElem? hu
    have hvm : v ∈ inner ext g.offsets.length := by rw [← h2]; exact List.mem_of_getElem? hv
    have := h5 a b u v hu hv
    unfold has at this
    rw [this]
    refine and_congr_right fun _ => ?_
    have hus := hcs u (hin u hum)
    have hvs := hcs v (hin v hvm)
    constructor
    · rintro ⟨δ, hδ, hsh⟩
      obtain ⟨v', hi, hm⟩ := (image_iff ext pbc _ hlen u v δ hum hvm).1 hsh
      have hv' := image_site ext pbc g.offsets.length v v' (by rw [hd]; exact hvs) hi
      rw [hd] at hv'
      refine ⟨v', hi, (F.dist_iff u v' hus hv'.1).2 ((F.steps u v' hus hv'.1).2 ⟨δ, ?_, hm⟩)⟩
      rw [hv'.2]
      exact hδ
    · rintro ⟨v', hi, hdist⟩
      have hv' := image_site ext pbc g.offsets.length v v' (by rw [hd]; exact hvs) hi
      rw [hd] at hv'
      obtain ⟨δ, hδ, hm⟩ := (F.steps u v' hus hv'.1).1 ((F.dist_iff u v' hus hv'.1).1 hdist)
      rw [hv'.2] at hδ
      exact ⟨δ, hδ, (image_iff ext pbc _ hlen u v δ hum hvm).2 ⟨v', hi, hm⟩⟩
  · intro he3 hp a u hu
    have hpbc : pbc = ext.map fun _ => true := by
      apply List.ext_getElem
      · simp [hlen]
      · intro i h1 h2
        simp [hp _ (List.getElem_mem h1)]
    refine steps_degree L ext g.offsets.length he3 S hS hSn hS0 h2 ?_ a u hu
    intro a b u v hu hv
    rw [h5 a b u v hu hv, hpbc]

end

end Verif.CommonLat
