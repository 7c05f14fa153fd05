import Verif.Props.LegacyRbm

/-! C177, C178: the Jastrow machines of `netket/legacy/machine/jastrow.py`. -/

namespace Verif.LegacyMachine
open Verif.Hilbert (Err)
open Verif.Symm (IsPermGroup IsTranslate exists_translate sum_range_perm range_surj)
open Finset

/-! ## Specification -/

/-- the documented logarithm: `Σ_i a_i s_i + Σ_{i<j} s_i W_ij s_j`. -/
noncomputable def jastrowSum (n : Nat) (a : Nat → ℂ) (w : Nat → Nat → ℂ) (s : Nat → ℂ) : ℂ :=
  ∑ i ∈ range n, a i * s i + ∑ i ∈ range n, ∑ j ∈ range n, if i < j then s i * w i j * s j else 0

/-- some automorphism carries the unordered pair `u` to the unordered pair `v`. -/
def SameOrbit (P : Nat) (am : Nat → Nat → Nat) (u v : Nat × Nat) : Prop :=
  ∃ l < P, (v.1 = am l u.1 ∧ v.2 = am l u.2) ∨ (v.1 = am l u.2 ∧ v.2 = am l u.1)

/-! ## Pairs -/

theorem mem_pairs (n : Nat) (q : Nat × Nat) : q ∈ pairs n ↔ q.1 < q.2 ∧ q.2 < n := by
  unfold pairs
  rw [List.mem_flatMap]
  constructor
  · rintro ⟨i, hi, h⟩
    obtain ⟨d, hd, rfl⟩ := List.mem_map.1 h
    rw [List.mem_range] at hi hd
    constructor
    · show i < i + 1 + d
      omega
    · show i + 1 + d < n
      omega
  · rintro ⟨h1, h2⟩
    refine ⟨q.1, List.mem_range.2 (by omega), List.mem_map.2 ⟨q.2 - (q.1 + 1), List.mem_range.2 (by omega), ?_⟩⟩
    obtain ⟨a, b⟩ := q
    simp only [Prod.mk.injEq, true_and]
    simp only at h1
    omega

theorem pairs_sum (n : Nat) (F : Nat × Nat → ℂ) :
    ((pairs n).map F).sum = ∑ i ∈ range n, ∑ j ∈ range n, if i < j then F (i, j) else 0 := by
  have key : ∀ k ≤ n, (((List.range k).flatMap fun i : Nat => (List.range (n - (i + 1))).map fun d : Nat => (i, i + 1 + d)).map F).sum
      = ∑ i ∈ range k, ∑ j ∈ range n, if i < j then F (i, j) else 0 := by
    intro k hk
    induction k with
    | zero => simp
    | succ k ih =>
      rw [List.range_succ, List.flatMap_append, List.map_append, List.sum_append, ih (by omega), sum_range_succ]
      congr 1
      have : n = (k + 1) + (n - (k + 1)) := by omega
      rw [show ∑ j ∈ range n, (if k < j then F (k, j) else 0)
          = ∑ j ∈ range ((k + 1) + (n - (k + 1))), (if k < j then F (k, j) else 0) by rw [← this]]
      rw [sum_range_add, sum_eq_zero fun j hj => if_neg (by have := mem_range.1 hj; omega), zero_add]
      simp only [List.flatMap_cons, List.flatMap_nil, List.append_nil, List.map_map]
      rw [← Fin.sum_univ_eq_sum_range (fun d => if k < k + 1 + d then F (k, k + 1 + d) else 0)]
      rw [← List.sum_ofFn, List.ofFn_eq_map, ← List.map_coe_finRange_eq_range, List.map_map]
      congr 1
      refine List.map_congr_left fun d _ => ?_
      simp only [Function.comp]
      rw [if_pos (by omega)]
  exact key n le_rfl

theorem pairs_nodup (n : Nat) : (pairs n).Nodup := by
  unfold pairs
  rw [List.nodup_flatMap]
  constructor
  · intro i _
    refine List.Nodup.map_on ?_ List.nodup_range
    intro a _ b _ h
    have := (Prod.mk.inj h).2
    omega
  · refine List.Pairwise.imp_of_mem ?_ (List.nodup_range (n := n))
    intro a b _ _ hab q h1 h2
    obtain ⟨d, _, rfl⟩ := List.mem_map.1 h1
    obtain ⟨e, _, h⟩ := List.mem_map.1 h2
    exact hab (Prod.mk.inj h).1.symm

theorem pairs_length (n : Nat) : (pairs n).length = n * (n - 1) / 2 := by
  have h1 : (pairs n).length = ∑ i ∈ range n, (n - 1 - i) := by
    unfold pairs
    rw [List.length_flatMap, ← Fin.sum_univ_eq_sum_range (fun i => n - 1 - i), ← List.sum_ofFn, List.ofFn_eq_map,
      ← List.map_coe_finRange_eq_range, List.map_map]
    congr 1
    refine List.map_congr_left fun i _ => ?_
    simp only [Function.comp, List.length_map, List.length_range]
    omega
  rw [h1, Finset.sum_range_reflect (fun i => i) n, Finset.sum_range_id]

/-- C177: without automorphisms every pair has its own parameter: pair and parameter determine each other, and the table is symmetric. -/
theorem C177_jastrow_plain (n : Nat) :
    (∀ i < n, ∀ j < n, i ≠ j → smapPlain n i j < n * (n - 1) / 2 ∧ smapPlain n i j = smapPlain n j i)
    ∧ (∀ i j k l, i < j → j < n → k < l → l < n → (smapPlain n i j = smapPlain n k l ↔ i = k ∧ j = l))
    ∧ ∀ q < n * (n - 1) / 2, ∃ i j, i < j ∧ j < n ∧ smapPlain n i j = q := by
  refine ⟨fun i hi j hj h => ⟨?_, ?_⟩, fun i j k l h1 h2 h3 h4 => ⟨fun h => ?_, ?_⟩, fun q hq => ?_⟩
  · rw [← pairs_length]
    refine List.idxOf_lt_length_of_mem ((mem_pairs n _).2 ⟨?_, ?_⟩)
    · show min i j < max i j
      omega
    · show max i j < n
      omega
  · unfold smapPlain; rw [min_comm, max_comm]
  · unfold smapPlain at h
    rw [min_eq_left h1.le, max_eq_right h1.le, min_eq_left h3.le, max_eq_right h3.le] at h
    have := (List.idxOf_inj ((mem_pairs n (i, j)).2 ⟨h1, h2⟩)).1 h
    exact Prod.mk.inj this
  · rintro ⟨rfl, rfl⟩; rfl
  · rw [← pairs_length] at hq
    have hm := (mem_pairs n (pairs n)[q]).1 (List.getElem_mem hq)
    refine ⟨(pairs n)[q].1, (pairs n)[q].2, hm.1, hm.2, ?_⟩
    unfold smapPlain
    rw [min_eq_left hm.1.le, max_eq_right hm.1.le]
    exact (pairs_nodup n).idxOf_getElem q hq

/-! ## The table of the symmetric machine -/

theorem perm_id {n P : Nat} {am : Nat → Nat → Nat} (G : IsPermGroup n P am) (hP : 0 < P) : ∃ e < P, ∀ i < n, am e i = i := by
  obtain ⟨s, T⟩ := exists_translate n P am G 0 hP
  obtain ⟨k, hk, hs⟩ := T.1.2.2 0 hP
  refine ⟨k, hk, fun i hi => ?_⟩
  obtain ⟨j, hj, rfl⟩ := range_surj (G.lt 0 hP) (G.inj 0 hP) i hi
  have := T.2 k hk j hj
  rw [hs] at this
  exact this.symm

theorem perm_inv {n P : Nat} {am : Nat → Nat → Nat} (G : IsPermGroup n P am) (h : Nat) (hh : h < P) :
    ∃ k < P, ∀ i < n, am k (am h i) = i := by
  obtain ⟨e, he, hid⟩ := perm_id G (by omega)
  obtain ⟨s, T⟩ := exists_translate n P am G h hh
  obtain ⟨k, hk, hs⟩ := T.1.2.2 e he
  refine ⟨k, hk, fun i hi => ?_⟩
  have := T.2 k hk i hi
  rw [hs, hid i hi] at this
  exact this.symm

theorem orbit_refl {n P : Nat} {am : Nat → Nat → Nat} (G : IsPermGroup n P am) (hP : 0 < P) (u : Nat × Nat) (h1 : u.1 < n) (h2 : u.2 < n) :
    SameOrbit P am u u := by
  obtain ⟨e, he, hid⟩ := perm_id G hP
  exact ⟨e, he, Or.inl ⟨(hid _ h1).symm, (hid _ h2).symm⟩⟩

theorem orbit_symm {n P : Nat} {am : Nat → Nat → Nat} (G : IsPermGroup n P am) (u v : Nat × Nat) (h1 : u.1 < n) (h2 : u.2 < n)
    (h : SameOrbit P am u v) : SameOrbit P am v u := by
  obtain ⟨l, hl, h⟩ := h
  obtain ⟨k, hk, hinv⟩ := perm_inv G l hl
  refine ⟨k, hk, ?_⟩
  rcases h with ⟨e1, e2⟩ | ⟨e1, e2⟩
  · left; rw [e1, e2, hinv _ h1, hinv _ h2]; exact ⟨rfl, rfl⟩
  · right; rw [e1, e2, hinv _ h1, hinv _ h2]; exact ⟨rfl, rfl⟩

theorem orbit_trans {n P : Nat} {am : Nat → Nat → Nat} (G : IsPermGroup n P am) (u v w : Nat × Nat) (h1 : u.1 < n) (h2 : u.2 < n)
    (h : SameOrbit P am u v) (h' : SameOrbit P am v w) : SameOrbit P am u w := by
  obtain ⟨l, hl, h⟩ := h
  obtain ⟨l', hl', h'⟩ := h'
  obtain ⟨k, hk, hc⟩ := G.closed l' hl' l hl
  refine ⟨k, hk, ?_⟩
  rw [hc _ h1, hc _ h2]
  rcases h with ⟨e1, e2⟩ | ⟨e1, e2⟩ <;> rcases h' with ⟨e3, e4⟩ | ⟨e3, e4⟩ <;> rw [e1] at * <;> rw [e2] at *
  · exact Or.inl ⟨e3, e4⟩
  · exact Or.inr ⟨e3, e4⟩
  · exact Or.inr ⟨e3, e4⟩
  · exact Or.inl ⟨e3, e4⟩

theorem markPair_eq (P : Nat) (am W : Nat → Nat → Nat) (q : Nat × Nat) (k a b : Nat) :
    (SameOrbit P am q (a, b) → markPair P am W q k a b = k) ∧ (¬ SameOrbit P am q (a, b) → markPair P am W q k a b = W a b) := by
  unfold markPair SameOrbit
  induction P with
  | zero => simp
  | succ P ih =>
    rw [List.range_succ, List.foldl_append]
    simp only [List.foldl_cons, List.foldl_nil]
    generalize (List.range P).foldl (fun W l => setSym W (am l q.1) (am l q.2) k) W = V at ih
    unfold setSym
    by_cases h : (a = am P q.1 ∧ b = am P q.2) ∨ (a = am P q.2 ∧ b = am P q.1)
    · rw [if_pos h]
      exact ⟨fun _ => rfl, fun h' => absurd ⟨P, by omega, h⟩ h'⟩
    · rw [if_neg h]
      constructor
      · rintro ⟨l, hl, hx⟩
        refine ih.1 ⟨l, ?_, hx⟩
        by_contra hne
        obtain rfl : l = P := by omega
        exact h hx
      · intro h'
        exact ih.2 fun ⟨l, hl, hx⟩ => h' ⟨l, by omega, hx⟩

theorem mark_fold (P : Nat) (am : Nat → Nat → Nat) (L : List ((Nat × Nat) × Nat)) (W : Nat → Nat → Nat) (a b a' b' : Nat)
    (h : ∀ q ∈ L, SameOrbit P am q.1 (a, b) ↔ SameOrbit P am q.1 (a', b')) (hW : W a b = W a' b') :
    L.foldl (fun W q => markPair P am W q.1 q.2) W a b = L.foldl (fun W q => markPair P am W q.1 q.2) W a' b' := by
  induction L generalizing W with
  | nil => exact hW
  | cons q L ih =>
    simp only [List.foldl_cons]
    refine ih _ (fun r hr => h r (List.mem_cons_of_mem _ hr)) ?_
    by_cases hq : SameOrbit P am q.1 (a, b)
    · rw [(markPair_eq P am W q.1 q.2 a b).1 hq, (markPair_eq P am W q.1 q.2 a' b').1 ((h q List.mem_cons_self).1 hq)]
    · rw [(markPair_eq P am W q.1 q.2 a b).2 hq, (markPair_eq P am W q.1 q.2 a' b').2 fun h' => hq ((h q List.mem_cons_self).2 h'), hW]

theorem mark_hit (P : Nat) (am : Nat → Nat → Nat) (L : List ((Nat × Nat) × Nat)) (W : Nat → Nat → Nat) (a b : Nat) :
    (∃ q ∈ L, SameOrbit P am q.1 (a, b) ∧ L.foldl (fun W q => markPair P am W q.1 q.2) W a b = q.2)
    ∨ ((∀ q ∈ L, ¬ SameOrbit P am q.1 (a, b)) ∧ L.foldl (fun W q => markPair P am W q.1 q.2) W a b = W a b) := by
  induction L generalizing W with
  | nil => right; simp
  | cons q L ih =>
    simp only [List.foldl_cons]
    rcases ih (markPair P am W q.1 q.2) with ⟨r, hr, h1, h2⟩ | ⟨h1, h2⟩
    · exact Or.inl ⟨r, List.mem_cons_of_mem _ hr, h1, h2⟩
    · by_cases hq : SameOrbit P am q.1 (a, b)
      · left
        exact ⟨q, List.mem_cons_self, hq, by rw [h2, (markPair_eq P am W q.1 q.2 a b).1 hq]⟩
      · right
        refine ⟨fun r hr => ?_, by rw [h2, (markPair_eq P am W q.1 q.2 a b).2 hq]⟩
        rcases List.mem_cons.1 hr with rfl | hr
        · exact hq
        · exact h1 r hr

theorem mark_iff {n P : Nat} {am : Nat → Nat → Nat} (G : IsPermGroup n P am) (hP : 0 < P) (u v : Nat × Nat) (hu : u ∈ pairs n) (hv : v ∈ pairs n) :
    markAll n P am u.1 u.2 = markAll n P am v.1 v.2 ↔ SameOrbit P am u v := by
  have lt : ∀ q ∈ pairs n, q.1 < n ∧ q.2 < n := fun q hq => by
    have := (mem_pairs n q).1 hq
    omega
  have mem : ∀ q ∈ (pairs n).zipIdx, q.1 ∈ pairs n := fun q hq => List.fst_mem_of_mem_zipIdx hq
  constructor
  · intro h
    have hit : ∀ w ∈ pairs n, ∃ q ∈ (pairs n).zipIdx, SameOrbit P am q.1 w ∧ markAll n P am w.1 w.2 = q.2 := by
      intro w hw
      rcases mark_hit P am (pairs n).zipIdx (fun _ _ => 0) w.1 w.2 with h | ⟨h, -⟩
      · exact h
      · exfalso
        obtain ⟨i, hi, e⟩ := List.getElem_of_mem hw
        refine h (w, i) ?_ (orbit_refl G hP w (lt w hw).1 (lt w hw).2)
        rw [List.mem_zipIdx_iff_getElem?, List.getElem?_eq_getElem hi, e]
    obtain ⟨q, hq, o1, e1⟩ := hit u hu
    obtain ⟨r, hr, o2, e2⟩ := hit v hv
    have hqr : q = r := by
      rw [List.mem_zipIdx_iff_getElem?] at hq hr
      have : q.2 = r.2 := by rw [← e1, ← e2, h]
      rw [this] at hq
      rw [hq] at hr
      exact Prod.ext (Option.some.inj hr) this
    subst hqr
    have hql := lt q.1 (mem q hq)
    exact orbit_trans G u q.1 v (lt u hu).1 (lt u hu).2 (orbit_symm G q.1 u hql.1 hql.2 o1) o2
  · intro h
    refine mark_fold P am _ _ _ _ _ _ (fun q hq => ?_) rfl
    have hql := lt q.1 (mem q hq)
    constructor
    · intro o; exact orbit_trans G q.1 u v hql.1 hql.2 o h
    · intro o; exact orbit_trans G q.1 v u hql.1 hql.2 o (orbit_symm G u v (lt u hu).1 (lt u hu).2 h)

theorem labels_mem (W : Nat → Nat → Nat) (L : List (Nat × Nat)) (seen : List Nat) (k : Nat) :
    k ∈ labels W L seen ↔ k ∈ seen ∨ ∃ q ∈ L, W q.1 q.2 = k := by
  induction L generalizing seen with
  | nil => simp [labels]
  | cons q L ih =>
    unfold labels
    split
    · rename_i h
      rw [ih]
      constructor
      · rintro (h1 | ⟨r, hr, e⟩)
        · exact Or.inl h1
        · exact Or.inr ⟨r, List.mem_cons_of_mem _ hr, e⟩
      · rintro (h1 | ⟨r, hr, e⟩)
        · exact Or.inl h1
        · rcases List.mem_cons.1 hr with rfl | hr
          · exact Or.inl (e ▸ h)
          · exact Or.inr ⟨r, hr, e⟩
    · rw [ih, List.mem_append, List.mem_singleton]
      constructor
      · rintro ((h1 | h1) | ⟨r, hr, e⟩)
        · exact Or.inl h1
        · exact Or.inr ⟨q, List.mem_cons_self, h1.symm⟩
        · exact Or.inr ⟨r, List.mem_cons_of_mem _ hr, e⟩
      · rintro (h1 | ⟨r, hr, e⟩)
        · exact Or.inl (Or.inl h1)
        · rcases List.mem_cons.1 hr with rfl | hr
          · exact Or.inl (Or.inr e.symm)
          · exact Or.inr ⟨r, hr, e⟩

theorem labels_nodup (W : Nat → Nat → Nat) (L : List (Nat × Nat)) (seen : List Nat) (h : seen.Nodup) : (labels W L seen).Nodup := by
  induction L generalizing seen with
  | nil => exact h
  | cons q L ih =>
    unfold labels
    split
    · exact ih seen h
    · rename_i hq
      refine ih _ (List.nodup_append.2 ⟨h, by simp, ?_⟩)
      intro a ha b hb e
      rw [List.mem_singleton] at hb
      subst hb; subst e
      exact hq ha

/-- C177: with a group of automorphisms, two pairs share their parameter exactly if an automorphism carries one to the other; the table is
    symmetric, every parameter is used, and so their number is the number of orbits of pairs. -/
theorem C177_jastrow_symm (n P : Nat) (am : Nat → Nat → Nat) (G : IsPermGroup n P am) (hP : 0 < P) :
    (∀ i < n, ∀ j < n, i ≠ j → (genSymm n P am).1 i j < (genSymm n P am).2 ∧ (genSymm n P am).1 i j = (genSymm n P am).1 j i)
    ∧ (∀ i j k l, i < n → j < n → i ≠ j → k < n → l < n → k ≠ l →
        ((genSymm n P am).1 i j = (genSymm n P am).1 k l ↔ SameOrbit P am (i, j) (k, l)))
    ∧ ∀ q < (genSymm n P am).2, ∃ i j, i < j ∧ j < n ∧ (genSymm n P am).1 i j = q := by
  have hpair : ∀ i < n, ∀ j < n, i ≠ j → (min i j, max i j) ∈ pairs n := by
    intro i hi j hj h
    refine (mem_pairs n _).2 ⟨?_, ?_⟩
    · show min i j < max i j
      omega
    · show max i j < n
      omega
  have hlab : ∀ i < n, ∀ j < n, i ≠ j → markAll n P am (min i j) (max i j) ∈ labels (markAll n P am) (pairs n) [] := by
    intro i hi j hj h
    exact (labels_mem _ _ _ _).2 (Or.inr ⟨_, hpair i hi j hj h, rfl⟩)
  have hmm : ∀ i j, SameOrbit P am (i, j) = SameOrbit P am (min i j, max i j) := by
    intro i j
    funext v
    rcases le_total i j with h | h
    · rw [min_eq_left h, max_eq_right h]
    · rw [min_eq_right h, max_eq_left h]
      unfold SameOrbit
      apply propext
      constructor <;> rintro ⟨l, hl, h | h⟩
      · exact ⟨l, hl, Or.inr h⟩
      · exact ⟨l, hl, Or.inl h⟩
      · exact ⟨l, hl, Or.inr h⟩
      · exact ⟨l, hl, Or.inl h⟩
  have hmm' : ∀ u k l, SameOrbit P am u (k, l) ↔ SameOrbit P am u (min k l, max k l) := by
    intro u k l
    rcases le_total k l with h | h
    · rw [min_eq_left h, max_eq_right h]
    · rw [min_eq_right h, max_eq_left h]
      unfold SameOrbit
      constructor <;> rintro ⟨m, hm, ⟨h1, h2⟩ | ⟨h1, h2⟩⟩
      · exact ⟨m, hm, Or.inr ⟨h2, h1⟩⟩
      · exact ⟨m, hm, Or.inl ⟨h2, h1⟩⟩
      · exact ⟨m, hm, Or.inr ⟨h2, h1⟩⟩
      · exact ⟨m, hm, Or.inl ⟨h2, h1⟩⟩
  refine ⟨fun i hi j hj h => ⟨?_, ?_⟩, fun i j k l hi hj h hk hl h' => ?_, fun q hq => ?_⟩
  · exact List.idxOf_lt_length_of_mem (hlab i hi j hj h)
  · simp only [genSymm]; rw [min_comm, max_comm]
  · simp only [genSymm]
    rw [List.idxOf_inj (hlab i hi j hj h)]
    rw [hmm i j, hmm' _ k l]
    exact mark_iff G hP (min i j, max i j) (min k l, max k l) (hpair i hi j hj h) (hpair k hk l hl h')
  · simp only [genSymm] at hq ⊢
    have hm := (labels_mem (markAll n P am) (pairs n) [] _).1 (List.getElem_mem hq)
    rcases hm with hm | ⟨p, hp, e⟩
    · simp at hm
    · have hp' := (mem_pairs n p).1 hp
      refine ⟨p.1, p.2, hp'.1, hp'.2, ?_⟩
      rw [min_eq_left hp'.1.le, max_eq_right hp'.1.le, e]
      exact (labels_nodup _ _ _ List.nodup_nil).idxOf_getElem q hq

/-! ## Values and derivatives -/

/-- C177: `log_val` of the Jastrow machines is the documented sum: visible biases first, then one parameter per entry of the table. -/
theorem C177_jastrow_log_val (c : JCfg) (p : List ℂ) (x : Nat → ℂ) :
    jLogVal c p x = jastrowSum c.n (fun i => if c.useA then ent p i else 0) (fun i j => ent p (jOff c + c.smap i j)) x := by
  unfold jLogVal jLogBuf jastrowSum
  simp only
  rw [pairs_sum]
  by_cases hA : c.useA = true
  · simp only [hA, if_true]
    rw [add_comm]
    congr 1
    exact sum_congr rfl fun i _ => mul_comm _ _
  · simp [hA]

/-- C177: `der_log` of the Jastrow machines is the gradient of `log_val`, for all parameters and configurations. -/
theorem C177_jastrow_der_log (c : JCfg) (p : List ℂ) (hp : p.length = jPar c) (x : Nat → ℂ) (k : Nat) (hk : k < jPar c) (t : ℂ) :
    HasDerivAt (fun t => jLogVal c (p.set k t) x) (ent (jDerLog c x) k) t := by
  have hkl : k < p.length := by omega
  simp only [C177_jastrow_log_val, jastrowSum]
  have h1 : HasDerivAt (fun t => ∑ i ∈ range c.n, (if c.useA then ent (p.set k t) i else 0) * x i)
      (∑ i ∈ range c.n, (if c.useA then (if i = k then 1 else 0) else 0) * x i) t := by
    refine HasDerivAt.fun_sum fun i _ => ?_
    by_cases hA : c.useA = true
    · simp only [hA, if_true]
      exact (ent_set_deriv p k hkl i t).mul_const (x i)
    · simp only [hA, Bool.false_eq_true, if_false, zero_mul]
      exact hasDerivAt_const t 0
  have h2 : HasDerivAt (fun t => ∑ i ∈ range c.n, ∑ j ∈ range c.n, if i < j then x i * ent (p.set k t) (jOff c + c.smap i j) * x j else 0)
      (∑ i ∈ range c.n, ∑ j ∈ range c.n, if i < j then x i * (if jOff c + c.smap i j = k then 1 else 0) * x j else 0) t := by
    refine HasDerivAt.fun_sum fun i _ => HasDerivAt.fun_sum fun j _ => ?_
    by_cases h : i < j
    · simp only [h, if_true]
      exact ((ent_set_deriv p k hkl _ t).const_mul (x i)).mul_const (x j)
    · simp only [h, if_false]
      exact hasDerivAt_const t 0
  refine (h1.add h2).congr_deriv ?_
  unfold ent jDerLog
  rw [List.getD_eq_getElem?_getD, List.getElem?_map, List.getElem?_range hk]
  simp only [Option.map_some, Option.getD_some]
  rw [pairs_sum]
  congr 1
  · by_cases hA : c.useA = true
    · simp [hA, ite_mul]
    · simp [hA]
  · refine sum_congr rfl fun i _ => sum_congr rfl fun j _ => ?_
    by_cases h : i < j
    · simp only [h, if_true, Nat.add_comm (c.smap i j)]
      split <;> simp
    · simp only [h, if_false]

/-- C177: with a group of automorphisms and without visible biases, `log_val` is the same for symmetry-related configurations. -/
theorem C177_jastrow_invariant (n P : Nat) (am : Nat → Nat → Nat) (G : IsPermGroup n P am) (p : List ℂ) (x : Nat → ℂ) (h : Nat) (hh : h < P) :
    jLogVal ⟨n, (genSymm n P am).2, (genSymm n P am).1, false⟩ p (fun i => x (am h i))
      = jLogVal ⟨n, (genSymm n P am).2, (genSymm n P am).1, false⟩ p x := by
  obtain ⟨hs, ho, -⟩ := C177_jastrow_symm n P am G (by omega)
  rw [C177_jastrow_log_val, C177_jastrow_log_val]
  simp only [jastrowSum, Bool.false_eq_true, if_false, zero_mul, sum_const_zero, zero_add, jOff]
  set w : Nat → Nat → ℂ := fun i j => ent p ((genSymm n P am).1 i j) with hw
  have double : ∀ y : Nat → ℂ, 2 * ∑ i ∈ range n, ∑ j ∈ range n, (if i < j then y i * w i j * y j else 0)
      = ∑ i ∈ range n, ∑ j ∈ range n, if i ≠ j then y i * w i j * y j else 0 := by
    intro y
    have e1 : ∀ i ∈ range n, ∀ j ∈ range n, (if i ≠ j then y i * w i j * y j else 0)
        = (if i < j then y i * w i j * y j else 0) + if j < i then y j * w j i * y i else 0 := by
      intro i hi j hj
      rcases lt_trichotomy i j with e | e | e
      · rw [if_pos e.ne, if_pos e, if_neg (by omega), add_zero]
      · subst e; simp
      · rw [if_pos e.ne', if_neg (by omega), if_pos e, zero_add]
        have : w i j = w j i := by
          simp only [hw]
          rw [(hs i (mem_range.1 hi) j (mem_range.1 hj) e.ne').2]
        rw [this]; ring
    rw [sum_congr rfl fun i hi => sum_congr rfl fun j hj => e1 i hi j hj]
    simp only [sum_add_distrib]
    rw [sum_comm (f := fun i j => if j < i then y j * w j i * y i else 0), two_mul]
  have key : ∑ i ∈ range n, ∑ j ∈ range n, (if i ≠ j then x (am h i) * w i j * x (am h j) else 0)
      = ∑ i ∈ range n, ∑ j ∈ range n, if i ≠ j then x i * w i j * x j else 0 := by
    rw [← sum_range_perm (G.lt h hh) (G.inj h hh) fun i => ∑ j ∈ range n, if i ≠ j then x i * w i j * x j else 0]
    refine sum_congr rfl fun i hi => ?_
    rw [← sum_range_perm (G.lt h hh) (G.inj h hh) fun j => if am h i ≠ j then x (am h i) * w (am h i) j * x j else 0]
    refine sum_congr rfl fun j hj => ?_
    have hi' := mem_range.1 hi
    have hj' := mem_range.1 hj
    by_cases e : i = j
    · subst e; simp
    · have e' : am h i ≠ am h j := fun e'' => e (G.inj h hh i hi' j hj' e'')
      rw [if_pos e, if_pos e']
      have : w i j = w (am h i) (am h j) := by
        simp only [hw]
        rw [(ho i j (am h i) (am h j) hi' hj' e (G.lt h hh i hi') (G.lt h hh j hj') e').2 ⟨h, hh, Or.inl ⟨rfl, rfl⟩⟩]
      rw [this]
  have h2 : (2 : ℂ) ≠ 0 := by norm_num
  apply mul_left_cancel₀ h2
  rw [double (fun i => x (am h i)), double x, key]

/-- C177: the constructor of the Jastrow machines. -/
theorem C177_jastrow_init (n : Nat) (useA : Bool) :
    (n < 2 → ∀ a, mkJastrow n useA a = .error .valueError)
    ∧ (2 ≤ n → mkJastrow n useA none = .ok ⟨n, n * (n - 1) / 2, smapPlain n, useA⟩)
    ∧ (2 ≤ n → ∀ r c am, c ≠ n → mkJastrow n useA (some (r, c, am)) = .error .runtimeError)
    ∧ ∀ c : JCfg, jPar c = c.nSym + if c.useA then c.n else 0 := by
  refine ⟨fun h a => ?_, fun h => ?_, fun h r c am hc => ?_, fun c => rfl⟩
  · unfold mkJastrow; rw [if_pos h]
  · unfold mkJastrow; rw [if_neg (by omega)]
  · unfold mkJastrow
    rw [if_neg (by omega)]
    simp only
    rw [if_pos (Or.inr hc)]

/-- C178: the visible biases of the "symmetric" Jastrow machine are not symmetrised: for every pair of sites exchanged by an automorphism there
    are parameters and a configuration for which the amplitude changes. -/
theorem C178_jastrow_bias_refuted (n P : Nat) (am : Nat → Nat → Nat) (G : IsPermGroup n P am) (h : Nat) (hh : h < P) (i : Nat) (hi : i < n)
    (hne : am h i ≠ i) :
    ∃ (p : List ℂ) (x : Nat → ℂ), p.length = jPar ⟨n, (genSymm n P am).2, (genSymm n P am).1, true⟩ ∧
      jLogVal ⟨n, (genSymm n P am).2, (genSymm n P am).1, true⟩ p (fun k => x (am h k))
        ≠ jLogVal ⟨n, (genSymm n P am).2, (genSymm n P am).1, true⟩ p x := by
  set c : JCfg := ⟨n, (genSymm n P am).2, (genSymm n P am).1, true⟩ with hc
  refine ⟨(List.replicate (jPar c) 0).set i 1, fun k => if k = i then 1 else 0, by simp, ?_⟩
  have hil : i < (List.replicate (jPar c) (0 : ℂ)).length := by simp [jPar, hc]; omega
  have he : ∀ r, ent ((List.replicate (jPar c) (0 : ℂ)).set i 1) r = if r = i then 1 else 0 := by
    intro r
    rw [ent_set _ i hil]
    split
    · rfl
    · unfold ent
      rw [List.getD_eq_getElem?_getD, List.getElem?_replicate]
      split <;> rfl
  rw [C177_jastrow_log_val, C177_jastrow_log_val]
  unfold jastrowSum
  simp only [he]
  simp only [hc, if_true, jOff]
  have z : ∀ y : Nat → ℂ, ∑ a ∈ range n, ∑ b ∈ range n,
      (if a < b then y a * (if n + (genSymm n P am).1 a b = i then (1 : ℂ) else 0) * y b else 0) = 0 := by
    intro y
    refine sum_eq_zero fun a _ => sum_eq_zero fun b _ => ?_
    rw [if_neg (show ¬ n + (genSymm n P am).1 a b = i by omega)]
    simp
  rw [z fun k => if am h k = i then 1 else 0, z fun k => if k = i then 1 else 0]
  have l0 : ∑ k ∈ range n, (if k = i then (1 : ℂ) else 0) * (if am h k = i then 1 else 0) = 0 := by
    refine sum_eq_zero fun k _ => ?_
    by_cases e : k = i
    · subst e; simp [hne]
    · simp [e]
  rw [l0]
  simp [hi]

/-- C178: an array `out` of the caller receives the two-body part only; the visible bias is in the returned array but not in `out`. -/
theorem C178_jastrow_out_refuted (c : JCfg) (hA : c.useA = true) (p : List ℂ) (x : Nat → ℂ) :
    (jLogBuf c p x).1 = jLogVal c p x - ∑ i ∈ range c.n, x i * ent p i := by
  unfold jLogVal jLogBuf
  simp [hA]

/-! ## Examples -/

/-- translations of a ring of four sites. -/
def ring4 (g i : Nat) : Nat := (i + g) % 4

example : IsPermGroup 4 4 ring4 := ⟨by decide, by decide, by decide, by decide⟩

example : (genSymm 4 4 ring4).2 = 2 ∧ (genSymm 4 4 ring4).1 0 1 = (genSymm 4 4 ring4).1 3 0
    ∧ (genSymm 4 4 ring4).1 0 2 = (genSymm 4 4 ring4).1 1 3 ∧ (genSymm 4 4 ring4).1 0 1 ≠ (genSymm 4 4 ring4).1 0 2 := by decide +kernel

example : jLogVal ⟨2, 1, fun _ _ => 0, true⟩ [2, 3, 5] (fun i => if i = 0 then 1 else -1) = -6 := by
  simp [jLogVal, jLogBuf, pairs, jOff, ent, sum_range_succ, List.range_succ]; norm_num

end Verif.LegacyMachine
