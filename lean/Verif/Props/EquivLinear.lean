import Verif.Props.SymmLinear
import Verif.Props.Group
import Mathlib.Algebra.BigOperators.Ring.List
import Mathlib.Algebra.Star.Rat
import Mathlib.Tactic.Linarith
import Mathlib.Tactic.FinCases

/-! C62: group convolutions are equivariant; GCNN amplitudes are invariant (or transform with a character). -/

set_option linter.unusedSectionVars false
set_option linter.unusedVariables false

namespace Verif.Symm
open Verif.Hilbert (Err)
open Finset

/-! ## PermutationGroup arrays are permutation groups in the sense of the specification -/

/-- the array of a PermutationGroup read as an array of natural numbers. -/
def permsOf (rows : List (List Int)) : Nat → Nat → Nat := fun g i => ((rows.getD g []).getD i 0).toNat

theorem permsOf_int (n : Nat) (rows : List (List Int)) (hrows : ∀ p ∈ rows, Grp.IsPerm n p) (g : Nat) (hg : g < rows.length) (i : Nat)
    (hi : i < n) : ((rows.getD g []).getD i 0) = (permsOf rows g i : Int) ∧ permsOf rows g i < n
      ∧ (rows.getD g []).getD i 0 ∈ rows[g] := by
  have hp := hrows rows[g] (List.getElem_mem hg)
  have e : rows.getD g [] = rows[g] := by rw [List.getD, List.getElem?_eq_getElem hg]; rfl
  have hi' : i < rows[g].length := by rw [hp.1]; exact hi
  have e2 : rows[g].getD i 0 = rows[g][i] := by rw [List.getD, List.getElem?_eq_getElem hi']; rfl
  have hb := hp.2.2 rows[g][i] (List.getElem_mem hi')
  unfold permsOf
  rw [e, e2]
  exact ⟨by omega, by omega, List.getElem_mem hi'⟩

theorem getD_compose (p q : List Int) (i : Nat) (hi : i < p.length) :
    (Grp.compose p q).getD i 0 = q.getD (p.getD i 0).toNat 0 := by
  simp [Grp.compose, hi]

/-- a PermutationGroup of distinct permutations closed under the product is a group of permutations. -/
theorem permsOf_group (n : Nat) (rows : List (List Int)) (hrows : ∀ p ∈ rows, Grp.IsPerm n p) (hnd : rows.Nodup)
    (hclosed : ∀ p ∈ rows, ∀ q ∈ rows, ∃ r ∈ rows, Grp.permProd p q = some (.ok r)) :
    IsPermGroup n rows.length (permsOf rows) := by
  have getg : ∀ g, g < rows.length → rows.getD g [] = rows.getD g [] ∧ rows[g]? = some (rows.getD g []) := by
    intro g hg
    exact ⟨rfl, by rw [List.getD, List.getElem?_eq_getElem hg]; rfl⟩
  refine ⟨fun g hg i hi => (permsOf_int n rows hrows g hg i hi).2.1, ?_, ?_, ?_⟩
  · intro g hg i hi j hj h
    have hp := hrows rows[g] (List.getElem_mem hg)
    have e : rows.getD g [] = rows[g] := by rw [List.getD, List.getElem?_eq_getElem hg]; rfl
    have hi' : i < rows[g].length := by rw [hp.1]; exact hi
    have hj' : j < rows[g].length := by rw [hp.1]; exact hj
    have e1 := (permsOf_int n rows hrows g hg i hi).1
    have e2 := (permsOf_int n rows hrows g hg j hj).1
    rw [h, ← e2, e, List.getD, List.getElem?_eq_getElem hi', List.getD, List.getElem?_eq_getElem hj'] at e1
    exact (List.Nodup.getElem_inj_iff hp.2.1).1 e1
  · intro g hg h hh e
    have hp := hrows rows[g] (List.getElem_mem hg)
    have hq := hrows rows[h] (List.getElem_mem hh)
    refine (List.Nodup.getElem_inj_iff hnd).1 (List.ext_getElem (by rw [hp.1, hq.1]) fun i h1 h2 => ?_)
    have hi : i < n := by rw [← hp.1]; exact h1
    have e1 := (permsOf_int n rows hrows g hg i hi).1
    have e2 := (permsOf_int n rows hrows h hh i hi).1
    rw [e i hi, ← e2] at e1
    simp only [List.getD, List.getElem?_eq_getElem hg, List.getElem?_eq_getElem hh, Option.getD_some, List.getElem?_eq_getElem h1,
      List.getElem?_eq_getElem h2] at e1
    exact e1
  · intro g hg h hh
    have eg : rows.getD g [] = rows[g] := by rw [List.getD, List.getElem?_eq_getElem hg]; rfl
    have eh : rows.getD h [] = rows[h] := by rw [List.getD, List.getElem?_eq_getElem hh]; rfl
    have hpg := hrows rows[g] (List.getElem_mem hg)
    have hph := hrows rows[h] (List.getElem_mem hh)
    obtain ⟨r, hr, hprod⟩ := hclosed rows[h] (List.getElem_mem hh) rows[g] (List.getElem_mem hg)
    rw [Grp.permProd_compose n _ _ hph hpg] at hprod
    simp only [Option.some.injEq, Except.ok.injEq] at hprod
    obtain ⟨k, hk, rfl⟩ := List.getElem_of_mem hr
    refine ⟨k, hk, fun i hi => ?_⟩
    have ek : rows.getD k [] = rows[k] := by rw [List.getD, List.getElem?_eq_getElem hk]; rfl
    unfold permsOf
    rw [ek, ← hprod, getD_compose _ _ i (by rw [hph.1]; exact hi), eg, eh]

/-- entries of the table computed by `product_table`. -/
theorem permsOf_table (n : Nat) (rows : List (List Int)) (hrows : ∀ p ∈ rows, Grp.IsPerm n p) (T : List (List Nat))
    (h : Grp.productTable rows = .ok T) : IsProductTable n rows.length (permsOf rows) (Grp.entry T) := by
  intro g hg k hk
  obtain ⟨hlen, hT⟩ := Grp.C39_product_table n rows hrows T h
  obtain ⟨t, u, r, h1, h2, h3, h4, h5⟩ := hT g k rows[g] rows[k] (List.getElem?_eq_getElem hg) (List.getElem?_eq_getElem hk)
  have he : Grp.entry T g k = u := by
    unfold Grp.entry
    rw [List.getD_eq_getElem?_getD, List.getD_eq_getElem?_getD, h1]
    simp [h3]
  obtain ⟨hu, hru⟩ := List.getElem?_eq_some_iff.1 h4
  rw [he]
  refine ⟨hu, fun i hi => ?_⟩
  have hpg := hrows rows[g] (List.getElem_mem hg)
  have hpu := hrows rows[u] (List.getElem_mem hu)
  rw [← hru, Grp.permProd_compose n _ _ hpg hpu] at h5
  simp only [Option.some.injEq, Except.ok.injEq] at h5
  have eg : rows.getD g [] = rows[g] := by rw [List.getD, List.getElem?_eq_getElem hg]; rfl
  have ek : rows.getD k [] = rows[k] := by rw [List.getD, List.getElem?_eq_getElem hk]; rfl
  have eu : rows.getD u [] = rows[u] := by rw [List.getD, List.getElem?_eq_getElem hu]; rfl
  unfold permsOf
  rw [ek, ← h5, getD_compose _ _ i (by rw [hpg.1]; exact hi), eg, eu]

/-! ## Convolutions -/

variable {K : Type} [CommRing K]

theorem table_translate (n m : Nat) (perms pt : Nat → Nat → Nat) (G : IsPermGroup n m perms) (P : IsProductTable n m perms pt) (h : Nat)
    (hh : h < m) (s : Nat → Nat) (T : IsTranslate n m perms h s) (g k : Nat) (hg : g < m) (hk : k < m) : pt (s g) (s k) = pt g k := by
  have a := P (s g) (T.1.1 g hg) (s k) (T.1.1 k hk)
  have b := P g hg k hk
  refine G.nodup _ a.1 _ b.1 fun i hi => ?_
  obtain ⟨j, hj, rfl⟩ := range_surj (G.lt g hg) (G.inj g hg) i hi
  obtain ⟨l, hl, rfl⟩ := range_surj (G.lt h hh) (G.inj h hh) j hj
  calc perms (pt (s g) (s k)) (perms g (perms h l)) = perms (pt (s g) (s k)) (perms (s g) l) := by rw [T.2 g hg l hl]
    _ = perms k (perms h l) := by rw [a.2 l hl, T.2 k hk l hl]
    _ = _ := (b.2 _ hj).symm

/-- the row of a table is a permutation of the labels. -/
theorem table_row (n m : Nat) (perms pt : Nat → Nat → Nat) (G : IsPermGroup n m perms) (P : IsProductTable n m perms pt) (g : Nat)
    (hg : g < m) : (∀ k < m, pt g k < m) ∧ ∀ k < m, ∀ l < m, pt g k = pt g l → k = l := by
  refine ⟨fun k hk => (P g hg k hk).1, fun k hk l hl e => G.nodup k hk l hl fun i hi => ?_⟩
  rw [← (P g hg k hk).2 i hi, ← (P g hg l hl).2 i hi, e]

/-- the convolution `y_k = Σ_{i,g} f^i_g W^{oi}_{g⁻¹k} (+ bias)` of the documentation. -/
def conv (inF m : Nat) (pt : Nat → Nat → Nat) (bias : Option (Nat → K)) (w : Nat → Nat → Nat → K) (x : FMap K) : FMap K :=
  fun o k => addBias bias o (∑ i ∈ range inF, ∑ g ∈ range m, x i g * w o i (pt g k))

/-- two feature maps related by a relabelling of the group axis. -/
def Related (inF m : Nat) (s : Nat → Nat) (x' x : FMap K) : Prop := ∀ i < inF, ∀ g < m, x' i (s g) = x i g

/-- a layer mapping maps related by a symmetry to maps related by the same symmetry. -/
def Equivariant (n m : Nat) (perms : Nat → Nat → Nat) (inF outF : Nat) (layer : FMap K → FMap K) : Prop :=
  ∀ h < m, ∀ s, IsTranslate n m perms h s → ∀ x' x : FMap K, Related inF m s x' x → Related outF m s (layer x') (layer x)

theorem conv_equivariant (n m : Nat) (perms pt : Nat → Nat → Nat) (G : IsPermGroup n m perms) (P : IsProductTable n m perms pt)
    (inF outF : Nat) (bias : Option (Nat → K)) (w : Nat → Nat → Nat → K) : Equivariant n m perms inF outF (conv inF m pt bias w) := by
  intro h hh s T x' x R o ho k hk
  unfold conv
  congr 1
  refine sum_congr rfl fun i hi => ?_
  rw [← sum_range_perm T.1.1 T.1.2.1 fun g => x' i g * w o i (pt g (s k))]
  refine sum_congr rfl fun g hg => ?_
  rw [R i (mem_range.1 hi) g (mem_range.1 hg), table_translate n m perms pt G P h hh s T g k (mem_range.1 hg) hk]

/-! ## DenseEquivariantMatrix -/

/-- C62: what DenseEquivariantMatrix computes: entry o·n_symm + k of the output is the convolution of the documentation. -/
theorem C62_matrix_formula (inF m : Nat) (pt : Nat → Nat → Nat) (mask bias : Option (Nat → K)) (w : Nat → Nat → Nat → K) (x : FMap K)
    (o k : Nat) (hk : k < m) (hpt : ∀ g < m, ∀ l < m, pt g l < m) :
    denseEquivMatrix inF m pt mask bias w x (o * m + k)
      = addBias bias o (∑ i ∈ range inF, ∑ g ∈ range m, x i g * maskKernel3 mask w o i (pt g k)) := by
  obtain ⟨h1, h2⟩ := divmod m o k hk
  unfold denseEquivMatrix
  rw [h1]
  congr 1
  unfold flatten2
  rw [sum_range_flat]
  refine sum_congr rfl fun i hi => sum_congr rfl fun g hg => ?_
  obtain ⟨h3, h4⟩ := divmod m i g (mem_range.1 hg)
  obtain ⟨h5, h6⟩ := divmod m g k hk
  unfold fullKernelEq flatten2
  rw [h1, h2, h3, h4, h5, h6]

/-- C62: the mask multiplies the kernel along the group axis, the bias is added per output feature. -/
theorem C62_matrix_mask (inF m : Nat) (pt : Nat → Nat → Nat) (mk b : Nat → K) (w : Nat → Nat → Nat → K) (x : FMap K)
    (o k : Nat) (hk : k < m) (hpt : ∀ g < m, ∀ l < m, pt g l < m) :
    denseEquivMatrix inF m pt (some mk) (some b) w x (o * m + k)
      = ∑ i ∈ range inF, ∑ g ∈ range m, x i g * (w o i (pt g k) * mk (pt g k)) + b o
    ∧ denseEquivMatrix inF m pt none none w x (o * m + k) = ∑ i ∈ range inF, ∑ g ∈ range m, x i g * w o i (pt g k) :=
  ⟨C62_matrix_formula inF m pt (some mk) (some b) w x o k hk hpt, C62_matrix_formula inF m pt none none w x o k hk hpt⟩

/-- C62: DenseEquivariantMatrix commutes with the symmetries. -/
theorem C62_matrix_equivariant (n m : Nat) (perms pt : Nat → Nat → Nat) (G : IsPermGroup n m perms) (P : IsProductTable n m perms pt)
    (inF outF : Nat) (mask bias : Option (Nat → K)) (w : Nat → Nat → Nat → K) :
    Equivariant n m perms inF outF fun x o k => denseEquivMatrix inF m pt mask bias w x (o * m + k) := by
  have hpt : ∀ g < m, ∀ l < m, pt g l < m := fun g hg l hl => (P g hg l hl).1
  intro h hh s T x' x R o ho k hk
  have := conv_equivariant n m perms pt G P inF outF bias (maskKernel3 mask w) h hh s T x' x R o ho k hk
  simp only [conv] at this
  simp only
  rw [C62_matrix_formula inF m pt mask bias w x' o (s k) (T.1.1 k hk) hpt, C62_matrix_formula inF m pt mask bias w x o k hk hpt]
  exact this

/-! ## GCNN -/

theorem hidden_related (n m : Nat) (perms : Nat → Nat → Nat) (act outAct : K → K) (h : Nat) (hh : h < m) (s : Nat → Nat)
    (T : IsTranslate n m perms h s) (layers : List (FMap K → FMap K)) : ∀ (feats : List Nat) (F0 : Nat) (x' x : FMap K),
    feats.length = layers.length →
    (∀ (i : Nat) layer, layers[i]? = some layer →
      Equivariant n m perms ((F0 :: feats).getD i 0) ((F0 :: feats).getD (i + 1) 0) layer) →
    Related F0 m s x' x →
    Related ((F0 :: feats).getD layers.length 0) m s (gcnnHidden act outAct x' layers) (gcnnHidden act outAct x layers) := by
  induction layers with
  | nil =>
    intro feats F0 x' x hl hE R i hi g hg
    simp only [gcnnHidden, List.foldl_nil]
    rw [R i (by simpa using hi) g hg]
  | cons layer layers ih =>
    intro feats F0 x' x hl hE R
    cases feats with
    | nil => simp at hl
    | cons F1 feats =>
      have hl' : feats.length = layers.length := by simpa using hl
      have R1 : Related F1 m s (layer fun f g => act (x' f g)) (layer fun f g => act (x f g)) := by
        refine hE 0 layer rfl h hh s T _ _ ?_
        intro i hi g hg
        show act (x' i (s g)) = act (x i g)
        rw [R i (by simpa using hi) g hg]
      have := ih feats F1 _ _ hl' (fun i layer' hi => by simpa using hE (i + 1) layer' (by simpa using hi)) R1
      simpa [gcnnHidden] using this

/-- C62: a GCNN whose group convolutions are equivariant has an amplitude that transforms with its characters: permuting the input
    by `h` multiplies it by `c` when every character of "`h`, then `k`" is `c` times that of `k`. -/
theorem C62_gcnn_character (exp act outAct : K → K) (n m : Nat) (perms : Nat → Nat → Nat) (G : IsPermGroup n m perms)
    (F0 : Nat) (feats : List Nat) (bias : Option (Nat → K)) (w : Nat → Nat → K) (layers : List (FMap K → FMap K))
    (hl : feats.length = layers.length)
    (hE : ∀ (i : Nat) layer, layers[i]? = some layer →
      Equivariant n m perms ((F0 :: feats).getD i 0) ((F0 :: feats).getD (i + 1) 0) layer)
    (chars : Nat → K) (h : Nat) (hh : h < m) (c : K)
    (hc : ∀ k < m, ∀ l < m, (∀ i < n, perms l i = perms k (perms h i)) → chars l = c * chars k) (x : Nat → K) :
    gcnnAmplitude exp ((F0 :: feats).getD layers.length 0) m chars
        (gcnnHidden act outAct (denseSymm n m F0 perms none bias w fun i => x (perms h i)) layers)
      = c * gcnnAmplitude exp ((F0 :: feats).getD layers.length 0) m chars
        (gcnnHidden act outAct (denseSymm n m F0 perms none bias w x) layers) := by
  obtain ⟨s, T⟩ := exists_translate n m perms G h hh
  have R := hidden_related n m perms act outAct h hh s T layers feats F0 _ _ hl hE
    (fun f hf k hk => denseSymm_translate n m F0 perms G h hh s T none bias w x f hf k hk)
  unfold gcnnAmplitude
  rw [mul_sum]
  refine sum_congr rfl fun f hf => ?_
  rw [mul_sum, ← sum_range_perm T.1.1 T.1.2.1]
  refine sum_congr rfl fun k hk => ?_
  rw [R f (mem_range.1 hf) k (mem_range.1 hk), hc k (mem_range.1 hk) (s k) (T.1.1 k (mem_range.1 hk)) (T.2 k (mem_range.1 hk)),
    mul_assoc]

/-- C62: with the default characters (all 1) the amplitude is invariant. -/
theorem C62_gcnn_invariant (exp act outAct : K → K) (n m : Nat) (perms : Nat → Nat → Nat) (G : IsPermGroup n m perms)
    (F0 : Nat) (feats : List Nat) (bias : Option (Nat → K)) (w : Nat → Nat → K) (layers : List (FMap K → FMap K))
    (hl : feats.length = layers.length)
    (hE : ∀ (i : Nat) layer, layers[i]? = some layer →
      Equivariant n m perms ((F0 :: feats).getD i 0) ((F0 :: feats).getD (i + 1) 0) layer)
    (h : Nat) (hh : h < m) (x : Nat → K) :
    gcnnAmplitude exp ((F0 :: feats).getD layers.length 0) m (fun _ => 1)
        (gcnnHidden act outAct (denseSymm n m F0 perms none bias w fun i => x (perms h i)) layers)
      = gcnnAmplitude exp ((F0 :: feats).getD layers.length 0) m (fun _ => 1)
        (gcnnHidden act outAct (denseSymm n m F0 perms none bias w x) layers) := by
  have := C62_gcnn_character exp act outAct n m perms G F0 feats bias w layers hl hE (fun _ => 1) h hh 1
    (fun k hk l hl e => by rw [one_mul]) x
  rw [one_mul] at this
  exact this

/-- C62, from the API: for a PermutationGroup (distinct, closed) DenseEquivariant(mode="matrix") with the group's own product table, and
    DenseSymm with the group's own array, commute with the symmetries, and `product_table` does not raise. -/
theorem C62_permutation_group (n : Nat) (rows : List (List Int)) (hrows : ∀ p ∈ rows, Grp.IsPerm n p) (hnd : rows.Nodup)
    (hclosed : ∀ p ∈ rows, ∀ q ∈ rows, ∃ r ∈ rows, Grp.permProd p q = some (.ok r)) :
    IsPermGroup n rows.length (permsOf rows) ∧ ∃ T, Grp.productTable rows = .ok T
      ∧ ∀ (inF outF : Nat) (mask bias : Option (Nat → K)) (w : Nat → Nat → Nat → K),
        Equivariant n rows.length (permsOf rows) inF outF fun x o k =>
          denseEquivMatrix inF rows.length (Grp.entry T) mask bias w x (o * rows.length + k) := by
  have G := permsOf_group n rows hrows hnd hclosed
  obtain ⟨_, T, hT⟩ := Grp.C39_closed n rows hrows hclosed
  exact ⟨G, T, hT, fun inF outF mask bias w => C62_matrix_equivariant n _ _ _ G (permsOf_table n rows hrows T hT) inF outF mask bias w⟩

/-! ## Parity models -/

/-- C122: the parity models cannot be evaluated: their final sum has incompatible shapes whenever there is more than one symmetry. -/
theorem C122_parity_shape_refuted (batch features m : Nat) (hm : 2 ≤ m) :
    parityOutShape batch features m = .error .valueError := by
  have h1 : ¬ (m = 0 ∨ m = 1 ∨ m + m = 1) := by omega
  simp [parityOutShape, broadcast, broadcastRev, h1]

/-- the plain models' sum is well shaped. -/
theorem C122_plain_shape (batch features m : Nat) (hb : batch ≠ 0) : gcnnOutShape batch features m = .ok [batch, features, m] := by
  by_cases h1 : batch = 1 <;> by_cases h2 : features = 1 <;> by_cases h3 : m = 1 <;>
    simp [gcnnOutShape, broadcast, broadcastRev, h1, h2, h3]

/-- C122: "the parity variants accept the documented inputs" is false, and for a single symmetry, where the shapes are compatible, the
    negative-parity amplitude is identically zero. -/
theorem C122_parity_refuted (exp : K → K) (features : Nat) (chars : Nat → K) (y yFlip : FMap K) :
    (∀ m, 2 ≤ m → ∀ sign, parityAmplitude exp features m chars sign y yFlip = .error .valueError)
    ∧ parityAmplitude exp features 1 chars (-1) y yFlip = .ok 0 := by
  constructor
  · intro m hm sign
    unfold parityAmplitude
    rw [C122_parity_shape_refuted 1 features m hm]
  · have hs : parityOutShape 1 features 1 = .ok [1, features + features, 2] := by
      by_cases h2 : features + features = 1 <;> simp [parityOutShape, broadcast, broadcastRev, h2]
    unfold parityAmplitude
    rw [hs]
    simp only
    congr 1
    refine sum_eq_zero fun f _ => ?_
    rw [show (1 + 1 : Nat) = 2 from rfl, sum_range_succ, sum_range_succ, sum_range_zero]
    simp

/-! ## DenseEquivariantIrrep -/

section irrep
variable {L : Type} [Field L] [StarRing L]

/-- a complete set of irreducible unitary representations of the group with table `pt` of order `m`: homomorphisms with the
    completeness relation. -/
structure IsCompleteIrreps (m : Nat) (pt : Nat → Nat → Nat) (irreps : List (Irrep L)) : Prop where
  hom : ∀ r ∈ irreps, ∀ g < m, ∀ k < m, ∀ a < r.dim, ∀ b < r.dim,
    ∑ c ∈ range r.dim, r.mat g a c * r.mat (pt g k) c b = r.mat k a b
  complete : ∀ g < m, ∀ k < m,
    (irreps.map fun r => ∑ a ∈ range r.dim, ∑ b ∈ range r.dim, r.mat k a b * (star (r.mat g a b) * ((r.dim : L) / (m : L)))).sum
      = if k = g then 1 else 0

theorem list_sum_finset {α : Type} (l : List α) (s : Finset Nat) (F : α → Nat → L) :
    (l.map fun r => ∑ i ∈ s, F r i).sum = ∑ i ∈ s, (l.map fun r => F r i).sum := by
  induction l with
  | nil => simp
  | cons a l ih => simp only [List.map_cons, List.sum_cons, ih, sum_add_distrib]

theorem inverseFT_eq (m : Nat) (irreps : List (Irrep L)) (Y : Irrep L → Nat → Nat → L) (g : Nat) :
    inverseFT m irreps (fun ρ a b => match irreps[ρ]? with | none => 0 | some r => Y r a b) g
      = (irreps.map fun r => ∑ a ∈ range r.dim, ∑ b ∈ range r.dim, Y r a b * (star (r.mat g a b) * ((r.dim : L) / (m : L)))).sum := by
  unfold inverseFT
  have : irreps.map (fun r => ∑ a ∈ range r.dim, ∑ b ∈ range r.dim, Y r a b * (star (r.mat g a b) * ((r.dim : L) / (m : L))))
      = irreps.zipIdx.map (fun ri : Irrep L × Nat =>
          ∑ a ∈ range ri.1.dim, ∑ b ∈ range ri.1.dim, Y ri.1 a b * (star (ri.1.mat g a b) * ((ri.1.dim : L) / (m : L)))) := by
    conv_lhs => rw [← List.zipIdx_map_fst 0 irreps]
    rw [List.map_map]
    rfl
  rw [this]
  congr 1
  refine List.map_congr_left fun ri hri => ?_
  have h := List.mem_zipIdx hri
  have h2 : irreps[ri.2]? = some ri.1 := by
    rw [List.getElem?_eq_getElem (by omega)]
    simp [h.2.2]
  simp only [h2]

theorem irrep_block (m : Nat) (pt : Nat → Nat → Nat) (r : Irrep L) (x w : Nat → L) (g : Nat)
    (hrow : ∀ h < m, (∀ k < m, pt h k < m) ∧ ∀ k < m, ∀ l < m, pt h k = pt h l → k = l)
    (hom : ∀ g < m, ∀ k < m, ∀ a < r.dim, ∀ b < r.dim, ∑ c ∈ range r.dim, r.mat g a c * r.mat (pt g k) c b = r.mat k a b)
    (a b : Nat) (ha : a < r.dim) (hb : b < r.dim) :
    ∑ c ∈ range r.dim, forwardFT m r x a c * forwardFT m r w c b
      = ∑ h ∈ range m, ∑ k ∈ range m, x h * w (pt h k) * r.mat k a b := by
  unfold forwardFT
  have : ∀ c ∈ range r.dim, (∑ h ∈ range m, x h * r.mat h a c) * (∑ k ∈ range m, w k * r.mat k c b)
      = ∑ h ∈ range m, ∑ k ∈ range m, x h * w (pt h k) * (r.mat h a c * r.mat (pt h k) c b) := by
    intro c _
    rw [sum_mul]
    refine sum_congr rfl fun h hh => ?_
    obtain ⟨r1, r2⟩ := hrow h (mem_range.1 hh)
    rw [← sum_range_perm r1 r2 fun k => w k * r.mat k c b, mul_sum]
    exact sum_congr rfl fun k _ => by ring
  rw [sum_congr rfl this, sum_comm]
  refine sum_congr rfl fun h hh => ?_
  rw [sum_comm]
  refine sum_congr rfl fun k hk => ?_
  rw [← mul_sum, hom h (mem_range.1 hh) k (mem_range.1 hk) a ha b hb]

/-- C62: DenseEquivariantIrrep with a complete set of irreps computes the same convolution `y_g = Σ_{j,h} f^j_h W^{jo}_{h⁻¹g}` (its kernel
    is indexed (in, out, group)). -/
theorem C62_irrep_formula (inF m : Nat) (pt : Nat → Nat → Nat) (irreps : List (Irrep L)) (I : IsCompleteIrreps m pt irreps)
    (hrow : ∀ h < m, (∀ k < m, pt h k < m) ∧ ∀ k < m, ∀ l < m, pt h k = pt h l → k = l)
    (mask bias : Option (Nat → L)) (w : Nat → Nat → Nat → L) (x : FMap L) (o g : Nat) (hg : g < m) :
    denseEquivIrrep inF m irreps mask bias w x o g
      = addBias bias o (∑ j ∈ range inF, ∑ h ∈ range m, x j h * maskKernel3 mask w j o (pt h g)) := by
  unfold denseEquivIrrep
  congr 1
  refine (inverseFT_eq m irreps (fun r a b => ∑ j ∈ range inF, ∑ c ∈ range r.dim,
        forwardFT m r (fun h => x j h) a c * forwardFT m r (fun h => maskKernel3 mask w j o h) c b) g).trans ?_
  have step : ∀ r ∈ irreps, (∑ a ∈ range r.dim, ∑ b ∈ range r.dim, (∑ j ∈ range inF, ∑ c ∈ range r.dim,
        forwardFT m r (fun h => x j h) a c * forwardFT m r (fun h => maskKernel3 mask w j o h) c b)
          * (star (r.mat g a b) * ((r.dim : L) / (m : L))))
      = ∑ j ∈ range inF, ∑ h ∈ range m, ∑ k ∈ range m, x j h * maskKernel3 mask w j o (pt h k)
          * ∑ a ∈ range r.dim, ∑ b ∈ range r.dim, r.mat k a b * (star (r.mat g a b) * ((r.dim : L) / (m : L))) := by
    intro r hr
    have e1 : ∀ a ∈ range r.dim, ∀ b ∈ range r.dim, (∑ j ∈ range inF, ∑ c ∈ range r.dim,
          forwardFT m r (fun h => x j h) a c * forwardFT m r (fun h => maskKernel3 mask w j o h) c b)
            * (star (r.mat g a b) * ((r.dim : L) / (m : L)))
        = ∑ j ∈ range inF, ∑ h ∈ range m, ∑ k ∈ range m, x j h * maskKernel3 mask w j o (pt h k)
            * (r.mat k a b * (star (r.mat g a b) * ((r.dim : L) / (m : L)))) := by
      intro a ha b hb
      rw [sum_mul]
      refine sum_congr rfl fun j _ => ?_
      rw [irrep_block m pt r (fun h => x j h) (fun h => maskKernel3 mask w j o h) g hrow (I.hom r hr) a b (mem_range.1 ha)
        (mem_range.1 hb), sum_mul]
      refine sum_congr rfl fun h _ => ?_
      rw [sum_mul]
      exact sum_congr rfl fun k _ => by ring
    rw [sum_congr rfl fun a ha => sum_congr rfl fun b hb => e1 a ha b hb]
    simp only [mul_sum]
    have push : ∀ (F : Nat → Nat → Nat → Nat → Nat → L), ∑ a ∈ range r.dim, ∑ b ∈ range r.dim, ∑ j ∈ range inF, ∑ h ∈ range m,
        ∑ k ∈ range m, F a b j h k = ∑ j ∈ range inF, ∑ h ∈ range m, ∑ k ∈ range m, ∑ a ∈ range r.dim, ∑ b ∈ range r.dim, F a b j h k := by
      intro F
      have c1 : ∀ a ∈ range r.dim, ∑ b ∈ range r.dim, ∑ j ∈ range inF, ∑ h ∈ range m, ∑ k ∈ range m, F a b j h k
          = ∑ j ∈ range inF, ∑ h ∈ range m, ∑ k ∈ range m, ∑ b ∈ range r.dim, F a b j h k := by
        intro a _
        rw [sum_comm]
        refine sum_congr rfl fun j _ => ?_
        rw [sum_comm]
        refine sum_congr rfl fun h _ => ?_
        rw [sum_comm]
      rw [sum_congr rfl c1, sum_comm]
      refine sum_congr rfl fun j _ => ?_
      rw [sum_comm]
      refine sum_congr rfl fun h _ => ?_
      rw [sum_comm]
    exact push _
  rw [List.map_congr_left step, list_sum_finset]
  refine sum_congr rfl fun j _ => ?_
  rw [list_sum_finset]
  refine sum_congr rfl fun h _ => ?_
  rw [list_sum_finset]
  have last : ∀ k ∈ range m, (irreps.map fun r => x j h * maskKernel3 mask w j o (pt h k)
        * ∑ a ∈ range r.dim, ∑ b ∈ range r.dim, r.mat k a b * (star (r.mat g a b) * ((r.dim : L) / (m : L)))).sum
      = if k = g then x j h * maskKernel3 mask w j o (pt h g) else 0 := by
    intro k hk
    rw [List.sum_map_mul_left, I.complete g hg k (mem_range.1 hk)]
    by_cases e : k = g
    · rw [if_pos e, if_pos e, mul_one, e]
    · rw [if_neg e, if_neg e, mul_zero]
  rw [sum_congr rfl last, sum_ite_eq' (range m) g, if_pos (mem_range.2 hg)]

/-- C62: mask and bias of the irreps layer. -/
theorem C62_irrep_mask (inF m : Nat) (pt : Nat → Nat → Nat) (irreps : List (Irrep L)) (I : IsCompleteIrreps m pt irreps)
    (hrow : ∀ h < m, (∀ k < m, pt h k < m) ∧ ∀ k < m, ∀ l < m, pt h k = pt h l → k = l)
    (mk b : Nat → L) (w : Nat → Nat → Nat → L) (x : FMap L) (o g : Nat) (hg : g < m) :
    denseEquivIrrep inF m irreps (some mk) (some b) w x o g
      = ∑ j ∈ range inF, ∑ h ∈ range m, x j h * (w j o (pt h g) * mk (pt h g)) + b o
    ∧ denseEquivIrrep inF m irreps none none w x o g = ∑ j ∈ range inF, ∑ h ∈ range m, x j h * w j o (pt h g) :=
  ⟨C62_irrep_formula inF m pt irreps I hrow (some mk) (some b) w x o g hg, C62_irrep_formula inF m pt irreps I hrow none none w x o g hg⟩

/-- C62: hence it commutes with the symmetries, and a GCNN_Irrep has an invariant amplitude. -/
theorem C62_irrep_equivariant (n m : Nat) (perms pt : Nat → Nat → Nat) (G : IsPermGroup n m perms) (P : IsProductTable n m perms pt)
    (irreps : List (Irrep L)) (I : IsCompleteIrreps m pt irreps) (inF outF : Nat) (mask bias : Option (Nat → L))
    (w : Nat → Nat → Nat → L) : Equivariant n m perms inF outF (denseEquivIrrep inF m irreps mask bias w) := by
  intro h hh s T x' x R o ho k hk
  have := conv_equivariant n m perms pt G P inF outF bias (fun o j g => maskKernel3 mask w j o g) h hh s T x' x R o ho k hk
  simp only [conv] at this
  rw [C62_irrep_formula inF m pt irreps I (fun h hh => table_row n m perms pt G P h hh) mask bias w x' o (s k) (T.1.1 k hk),
    C62_irrep_formula inF m pt irreps I (fun h hh => table_row n m perms pt G P h hh) mask bias w x o k hk]
  exact this

/-- C62: the irreps and matrix modes agree, entry by entry, when their kernels agree (the kernels are stored as (in, out, g) and
    (out, in, g)); their shapes differ: [out, n_symm] and [out·n_symm]. -/
theorem C62_modes_agree (n m : Nat) (perms pt : Nat → Nat → Nat) (G : IsPermGroup n m perms) (P : IsProductTable n m perms pt)
    (irreps : List (Irrep L)) (I : IsCompleteIrreps m pt irreps) (inF : Nat) (bias : Option (Nat → L))
    (w : Nat → Nat → Nat → L) (x : FMap L) (o g : Nat) (hg : g < m) :
    denseEquivIrrep inF m irreps none bias w x o g
      = denseEquivMatrix inF m pt none bias (fun o i k => w i o k) x (o * m + g) := by
  rw [C62_irrep_formula inF m pt irreps I (fun h hh => table_row n m perms pt G P h hh) none bias w x o g hg,
    C62_matrix_formula inF m pt none bias (fun o i k => w i o k) x o g hg fun g hg l hl => (P g hg l hl).1]
  rfl

/-- the layout used to multiply blocks of equal size at once (424-440) lists every irrep once, in order, with its own size. -/
theorem C62_layout (sizes : List Nat) : (groupShapes sizes).flatMap (fun nd => List.replicate nd.1 nd.2) = sizes := by
  have key : ∀ (sizes : List Nat) (acc : List (Nat × Nat)) (c d : Nat),
      (let r := sizes.foldl (fun (s : List (Nat × Nat) × Nat × Nat) d =>
        if s.2.2 = d then (s.1, s.2.1 + 1, s.2.2) else (s.1 ++ [(s.2.1, s.2.2)], 1, d)) (acc, c, d)
      (r.1 ++ [(r.2.1, r.2.2)]).flatMap (fun nd => List.replicate nd.1 nd.2))
        = acc.flatMap (fun nd => List.replicate nd.1 nd.2) ++ List.replicate c d ++ sizes := by
    intro sizes
    induction sizes with
    | nil => intro acc c d; simp
    | cons x xs ih =>
      intro acc c d
      simp only [List.foldl_cons]
      by_cases e : d = x
      · subst e
        simp only [if_true]
        have := ih acc (c + 1) d
        simp only at this
        rw [this, List.replicate_succ']
        simp
      · simp only [if_neg e]
        have := ih (acc ++ [(c, d)]) 1 x
        simp only at this
        rw [this]
        simp
  have := key sizes [] 0 1
  simpa [groupShapes] using this

end irrep

/-! ## Examples: the symmetries of a square -/

/-- rotations and reflections of the corners of a square. -/
def d4 : Nat → Nat → Nat := fun g i => if g < 4 then (i + g) % 4 else (g - i) % 4

/-- its table of `g⁻¹ k`. -/
def d4Table : Nat → Nat → Nat := fun g k =>
  ((List.range 8).find? fun l => (List.range 4).all fun i => d4 l (d4 g i) == d4 k i).getD 0

theorem d4_group : IsPermGroup 4 8 d4 := ⟨by decide +kernel, by decide +kernel, by decide +kernel, by decide +kernel⟩

theorem d4_table : IsProductTable 4 8 d4 d4Table := by
  unfold IsProductTable
  decide +kernel

/-- the four one-dimensional irreps and the two-dimensional one. -/
def d4Irreps : List (Irrep ℚ) :=
  [⟨1, fun _ _ _ => 1⟩, ⟨1, fun g _ _ => if g < 4 then 1 else -1⟩, ⟨1, fun g _ _ => if g % 2 = 0 then 1 else -1⟩,
   ⟨1, fun g _ _ => if (g % 2 = 0) = (g < 4) then 1 else -1⟩,
   ⟨2, fun g a b => (([[1, 0], [0, 1], [-1, 0], [0, -1]] : List (List ℚ)).getD (d4 g a) []).getD b 0⟩]

theorem d4_irreps : IsCompleteIrreps 8 d4Table d4Irreps := by
  refine ⟨?_, by decide +kernel⟩
  intro r hr
  fin_cases hr <;> decide +kernel

/-- hypotheses of the irreps theorems met by a non-abelian group, with a real convolution. -/
example : denseEquivIrrep 2 8 d4Irreps none (some fun _ => 3) (fun i o g => (i : ℚ) + 2 * o + g * g) (fun i g => (g : ℚ) - 3 * i) 1 5
    = denseEquivMatrix 2 8 d4Table none (some fun _ => 3) (fun o i g => (i : ℚ) + 2 * o + g * g) (fun i g => (g : ℚ) - 3 * i) 13 :=
  C62_modes_agree 4 8 d4 d4Table d4_group d4_table d4Irreps d4_irreps 2 _ _ _ 1 5 (by decide)

/-- a two-layer GCNN on the square with the sign character of the reflections: the amplitude changes sign. -/
example (w : Nat → Nat → ℚ) (w2 : Nat → Nat → Nat → ℚ) (act exp : ℚ → ℚ) (x : Nat → ℚ) :
    gcnnAmplitude exp 3 8 (fun g => if g < 4 then 1 else -1) (gcnnHidden act id (denseSymm 4 8 2 d4 none none w fun i => x (d4 5 i))
        [denseEquivIrrep 2 8 d4Irreps none none w2])
      = -1 * gcnnAmplitude exp 3 8 (fun g => if g < 4 then 1 else -1) (gcnnHidden act id (denseSymm 4 8 2 d4 none none w x)
        [denseEquivIrrep 2 8 d4Irreps none none w2]) :=
  C62_gcnn_character exp act id 4 8 d4 d4_group 2 [3] none w [denseEquivIrrep 2 8 d4Irreps none none w2] rfl
    (fun i layer h => by
      match i, h with
      | 0, h => obtain rfl := Option.some.inj h; exact C62_irrep_equivariant 4 8 d4 d4Table d4_group d4_table d4Irreps d4_irreps 2 3 none none w2
      | i + 1, h => simp at h)
    _ 5 (by decide) (-1) (by decide +kernel) x

example : groupShapes [1, 1, 1, 1, 2] = [(4, 1), (1, 2)] ∧ groupShapes [2, 1] = [(0, 1), (1, 2), (1, 1)] := by decide +kernel

example : C62_permutation_group (K := ℚ) 3 [[0, 1, 2], [1, 2, 0], [2, 0, 1]] (by unfold Grp.IsPerm; decide +kernel) (by decide +kernel)
    (by decide +kernel) = C62_permutation_group (K := ℚ) 3 [[0, 1, 2], [1, 2, 0], [2, 0, 1]] (by unfold Grp.IsPerm; decide +kernel)
    (by decide +kernel) (by decide +kernel) := rfl

example : parityOutShape 5 3 4 = .error .valueError ∧ gcnnOutShape 5 3 4 = .ok [5, 3, 4] := by decide +kernel

end Verif.Symm
