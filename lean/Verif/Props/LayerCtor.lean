import Verif.Model.LayerCtor
import Verif.Props.SpaceGroup
import Verif.Props.IrrepComplete

/-! C157, C158: the layers and networks that `DenseSymm`, `DenseEquivariant` and `GCNN` return, and what these compute.

    Specification: plain sums over sites, features and group elements (`first`, `convolve`, `network`, `amplitude`), with `perms g i` the
    image of site `i` in row `g` of the group's array and `pt g k` the label of g⁻¹k. -/

namespace Verif.LayerCtor
open Verif.Hilbert (Err)
open Verif.Symm
open Finset

/-- value of an optional bias (specification). -/
def biasOf (b : Option (Nat → ℂ)) (f : Nat) : ℂ := match b with
  | none => 0
  | some b => b f

/-- the symmetrised first layer (specification). -/
def first (n : Nat) (perms : Nat → Nat → Nat) (b : Option (Nat → ℂ)) (w : Nat → Nat → ℂ) (x : Nat → ℂ) (f g : Nat) : ℂ :=
  ∑ i ∈ range n, x i * w (perms g i) f + biasOf b f

/-- a group convolution (specification). -/
def convolve (m inF : Nat) (pt : Nat → Nat → Nat) (b : Option (Nat → ℂ)) (w : Nat → Nat → Nat → ℂ) (y : FMap ℂ) (o k : Nat) : ℂ :=
  ∑ i ∈ range inF, ∑ g ∈ range m, y i g * w o i (pt g k) + biasOf b o

/-- the feature maps of the network, layer by layer (specification). -/
def network (n m : Nat) (perms pt : Nat → Nat → Nat) (feats : Nat → Nat) (act : ℂ → ℂ) (b0 : Option (Nat → ℂ)) (w0 : Nat → Nat → ℂ)
    (b : Nat → Option (Nat → ℂ)) (w : Nat → Nat → Nat → Nat → ℂ) (x : Nat → ℂ) : Nat → FMap ℂ
  | 0 => first n perms b0 w0 x
  | l + 1 => convolve m (feats l) pt (b l) (w l) fun i g => act (network n m perms pt feats act b0 w0 b w x l i g)

/-- the amplitude of the network (specification). -/
def amplitude (n m : Nat) (perms pt : Nat → Nat → Nat) (k : Nat) (feats : Nat → Nat) (chars : Nat → ℂ) (act outAct exp : ℂ → ℂ)
    (b0 : Option (Nat → ℂ)) (w0 : Nat → Nat → ℂ) (b : Nat → Option (Nat → ℂ)) (w : Nat → Nat → Nat → Nat → ℂ) (x : Nat → ℂ) : ℂ :=
  ∑ f ∈ range (feats k), ∑ g ∈ range m, chars g * exp (outAct (network n m perms pt feats act b0 w0 b w x k f g))

/-- `rows` is a group of permutations of `n` sites, each listed once (specification). -/
def IsGroup (n : Nat) (rows : List (List Int)) : Prop :=
  (∀ p ∈ rows, Grp.IsPerm n p) ∧ rows.Nodup ∧ ∀ p ∈ rows, ∀ q ∈ rows, ∃ r ∈ rows, Grp.permProd p q = some (.ok r)

/-- `sg` is the space group of a periodic lattice with point group `P` (specification of the hypotheses on a lattice). -/
def IsSpaceGroup (shape : List Nat) (spc : Nat) (sg : List (List Int)) : Prop :=
  shape ≠ [] ∧ (∀ L ∈ shape, 0 < L) ∧ ∃ P, Grp.spaceGroup shape (List.replicate shape.length true) spc P = .ok sg

theorem addBias_eq (b : Option (Nat → ℂ)) (f : Nat) (v : ℂ) : addBias b f v = v + biasOf b f := by
  cases b with
  | none => exact (add_zero v).symm
  | some b => rfl

theorem readRows_eq (rows : List (List Int)) : readRows rows = permsOf rows := rfl

theorem symm_matrix (n F : Nat) (rows : List (List Int)) (b : Option (Nat → ℂ)) (w : Nat → Nat → ℂ) (x : Nat → ℂ) (f q : Nat) (hf : f < F)
    (hq : q < rows.length) : symmApply n F (.symmMatrix (.perms rows)) b w x f q = first n (readRows rows) b w x f q := by
  unfold symmApply first
  simp only
  rw [denseSymm_eq n rows.length F (readRows rows) none b w x f q hf hq, addBias_eq]
  rfl

theorem lattice_facts {shape : List Nat} {spc : Nat} {sg : List (List Int)} (hL : IsSpaceGroup shape spc sg) (hG : IsGroup (shape.prod * spc) sg) :
    0 < shape.prod ∧ sg.length = shape.prod * (sg.length / shape.prod) ∧ shape.prod * spc / shape.prod = spc
      ∧ TranslationRows shape (sg.length / shape.prod) spc (permsOf sg)
      ∧ ∀ T, Grp.productTable sg = .ok T → TranslationTable shape (sg.length / shape.prod) (Grp.entry T) := by
  obtain ⟨hne, hpos, P, hP⟩ := hL
  have hp : ∀ a < shape.length, (List.replicate shape.length true).getD a false = true := fun a ha => by
    rw [List.getD_eq_getElem?_getD, List.getElem?_replicate, if_pos ha]; rfl
  have hN := Grp.prod_pos shape hpos
  obtain ⟨sg', h', hl, _, hTR⟩ := Grp.C85_space_group_rows shape hne hpos _ hp spc P
  rw [hP] at h'
  obtain rfl := Except.ok.inj h'
  have hdiv : sg.length / shape.prod = P.length := by rw [hl, Nat.mul_div_cancel_left _ hN]
  rw [hdiv]
  refine ⟨hN, hl, Nat.mul_div_cancel_left _ hN, hTR, fun T hT => ?_⟩
  exact Grp.C85_space_group_table shape hne hpos _ hp spc P sg hP hG.1 hG.2.1 hG.2.2 T hT

theorem symm_fft (F : Nat) {shape : List Nat} {spc : Nat} {sg : List (List Int)} (hL : IsSpaceGroup shape spc sg)
    (hG : IsGroup (shape.prod * spc) sg) (b : Option (Nat → ℂ)) (w : Nat → Nat → ℂ) (x : Nat → ℂ) (f q : Nat) (hf : f < F) (hq : q < sg.length) :
    symmApply (shape.prod * spc) F (.symmFFT (.perms sg) shape) b w x f q = first (shape.prod * spc) (readRows sg) b w x f q := by
  obtain ⟨hN, hl, hs, hTR, _⟩ := lattice_facts hL hG
  rw [← symm_matrix (shape.prod * spc) F sg b w x f q hf hq]
  unfold symmApply
  simp only
  rw [hs, readRows_eq, C84_symm_agree shape hL.2.1 _ spc F _ hTR b _ x f hf q (by rw [← hl]; exact hq), ← hl]

theorem table_length {n : Nat} {rows : List (List Int)} (hG : IsGroup n rows) {T : List (List Nat)} (hT : Grp.productTable rows = .ok T) :
    T.length = rows.length := (Grp.C39_product_table n rows hG.1 T hT).1

theorem table_exists {n : Nat} {rows : List (List Int)} (hG : IsGroup n rows) : ∃ T, Grp.productTable rows = .ok T :=
  (Grp.C39_closed n rows hG.1 hG.2.2).2

theorem equiv_matrix (m inF : Nat) {n : Nat} {rows : List (List Int)} (hG : IsGroup n rows) {T : List (List Nat)}
    (hT : Grp.productTable rows = .ok T) (b : Option (Nat → ℂ)) (w : Nat → Nat → Nat → ℂ) (x : FMap ℂ) (o q : Nat) (hq : q < rows.length) :
    equivApply m inF (.equivMatrix (.table T)) b w x o q = convolve rows.length inF (Grp.entry T) b w x o q := by
  have hP := permsOf_table n rows hG.1 T hT
  unfold equivApply convolve
  simp only
  rw [table_length hG hT, C62_matrix_formula inF rows.length (Grp.entry T) none b w x o q hq fun g hg l hl => (hP g hg l hl).1, addBias_eq]
  rfl

theorem equiv_fft (m inF : Nat) {shape : List Nat} {spc : Nat} {sg : List (List Int)} (hL : IsSpaceGroup shape spc sg)
    (hG : IsGroup (shape.prod * spc) sg) {T : List (List Nat)} (hT : Grp.productTable sg = .ok T) (b : Option (Nat → ℂ))
    (w : Nat → Nat → Nat → ℂ) (x : FMap ℂ) (o q : Nat) (hq : q < sg.length) :
    equivApply m inF (.equivFFT (.table T) shape) b w x o q = convolve sg.length inF (Grp.entry T) b w x o q := by
  obtain ⟨hN, hl, hs, _, hTT⟩ := lattice_facts hL hG
  unfold equivApply convolve
  simp only
  rw [table_length hG hT, C84_equiv_conv shape hL.2.1 inF _ _ (hTT T hT) b w x o q (by rw [← hl]; exact hq), ← hl, addBias_eq]

theorem equiv_irrep (inF : Nat) {n : Nat} {rows : List (List Int)} (hG : IsGroup n rows) {T : List (List Nat)}
    (hT : Grp.productTable rows = .ok T) (ρ : List (Irrep ℂ)) (hρ : IsCompleteIrreps rows.length (Grp.entry T) ρ) (b : Option (Nat → ℂ))
    (w : Nat → Nat → Nat → ℂ) (x : FMap ℂ) (o q : Nat) (hq : q < rows.length) :
    equivApply rows.length inF (.equivIrrep (.irreps ρ)) b w x o q = convolve rows.length inF (Grp.entry T) b w x o q := by
  have hg := permsOf_group n rows hG.1 hG.2.1 hG.2.2
  have hP := permsOf_table n rows hG.1 T hT
  unfold equivApply convolve
  simp only
  rw [C62_irrep_formula inF rows.length (Grp.entry T) ρ hρ (fun h hh => table_row n _ _ _ hg hP h hh) none b _ x o q hq, addBias_eq]
  rfl

variable {γ : Type}

/-- **C157.** `DenseSymm` on a periodic lattice with a point group: modes "auto", "fft" and "matrix" all return a layer, and all three
    layers compute the symmetrised transform for the lattice's space group. -/
theorem C157_dense_symm_lattice (shape : List Nat) (spc : Nat) (sg autos : List (List Int)) (hL : IsSpaceGroup shape spc sg)
    (hG : IsGroup (shape.prod * spc) sg) (own : Bool) (spaceGroup : Option γ → Except Err (List (List Int))) (pg : Option γ)
    (hpg : pg ≠ none ∨ own = true) (hsg : spaceGroup pg = .ok sg) (given : Option (List Nat)) (mode : Mode)
    (hm : mode = .auto ∨ mode = .fft ∨ mode = .matrix) :
    ∃ L, denseSymm (.lattice shape own spaceGroup autos) pg mode given = .ok L
      ∧ ∀ (F : Nat) (b : Option (Nat → ℂ)) (w : Nat → Nat → ℂ) (x : Nat → ℂ), ∀ f < F, ∀ q < sg.length,
        symmApply (shape.prod * spc) F L b w x f q = first (shape.prod * spc) (readRows sg) b w x f q := by
  have hc : (pg.isSome || own) = true := by
    rcases hpg with h | h
    · cases pg with
      | none => exact absurd rfl h
      | some _ => rfl
    · rw [h]; simp
  have hs : symmSource (.lattice shape own spaceGroup autos) pg mode given
      = .ok (.perms sg, if mode = .auto then .fft else mode, some shape) := by
    unfold symmSource
    simp only [hc, if_true, hsg]
  rcases hm with rfl | rfl | rfl
  · refine ⟨.symmFFT (.perms sg) shape, by unfold denseSymm; rw [hs]; rfl, fun F b w x f hf q hq => symm_fft F hL hG b w x f q hf hq⟩
  · refine ⟨.symmFFT (.perms sg) shape, by unfold denseSymm; rw [hs]; rfl, fun F b w x f hf q hq => symm_fft F hL hG b w x f q hf hq⟩
  · refine ⟨.symmMatrix (.perms sg), by unfold denseSymm; rw [hs]; rfl, fun F b w x f hf q hq => symm_matrix _ F sg b w x f q hf hq⟩

/-- **C157.** `DenseSymm` on a graph, a group, a sequence or an array: modes "auto" and "matrix" return the layer of the graph's
    automorphisms or of the given permutations. -/
theorem C157_dense_symm_other (rows : List (List Int)) (sym : Arg γ) (pg : Option γ) (dims : List Nat)
    (hs : sym = .graph rows ∨ sym = .group rows ∨ sym = .sequence (.perms rows) ∨ sym = .array dims (.perms rows)
      ∨ (pg = none ∧ ∃ ext spaceGroup, sym = .lattice ext false spaceGroup rows))
    (given : Option (List Nat)) (mode : Mode) (hm : mode = .auto ∨ mode = .matrix) (n : Nat) :
    ∃ L, denseSymm sym pg mode given = .ok L
      ∧ ∀ (F : Nat) (b : Option (Nat → ℂ)) (w : Nat → Nat → ℂ) (x : Nat → ℂ), ∀ f < F, ∀ q < rows.length,
        symmApply n F L b w x f q = first n (readRows rows) b w x f q := by
  refine ⟨.symmMatrix (.perms rows), ?_, fun F b w x f hf q hq => symm_matrix n F rows b w x f q hf hq⟩
  rcases hs with rfl | rfl | rfl | rfl | ⟨rfl, ext, spaceGroup, rfl⟩ <;> rcases hm with rfl | rfl <;> rfl

/-- **C157.** which arguments `DenseSymm` accepts, and how it rejects the others: a TypeError if mode "fft" is asked for without any
    shape, a ValueError for modes it does not have, for mode "fft" on graphs without point group, and for anything else. -/
theorem C157_dense_symm_accepts (sym : Arg γ) (pg : Option γ) (given : Option (List Nat)) (mode : Mode)
    (hok : ∀ ext own spaceGroup autos, sym = .lattice ext own spaceGroup autos → ∃ sg, spaceGroup pg = .ok sg) :
    ((∃ L, denseSymm sym pg mode given = .ok L) ↔
      (mode = .auto ∨ mode = .matrix ∨ (mode = .fft ∧
        ((∃ ext own spaceGroup autos, sym = .lattice ext own spaceGroup autos ∧ (pg ≠ none ∨ own = true))
          ∨ (given ≠ none ∧ ((∃ rows, sym = .group rows) ∨ (∃ d, sym = .sequence d) ∨ ∃ dims d, sym = .array dims d)))))
      ∧ (∀ d, sym ≠ .hashable d) ∧ sym ≠ .other)
    ∧ (denseSymm sym pg mode given = .error .typeError ↔ mode = .fft ∧ given = none
        ∧ ((∃ rows, sym = .group rows) ∨ (∃ d, sym = .sequence d) ∨ ∃ dims d, sym = .array dims d))
    ∧ ∀ e, denseSymm sym pg mode given = .error e → e = .typeError ∨ e = .valueError := by
  cases sym with
  | lattice ext own spaceGroup autos =>
    obtain ⟨sg, hsg⟩ := hok ext own spaceGroup autos rfl
    cases pg <;> cases own <;> cases mode <;> simp [denseSymm, symmSource, hsg]
  | graph autos => cases mode <;> simp [denseSymm, symmSource]
  | group rows => cases mode <;> cases given <;> simp [denseSymm, symmSource]
  | sequence d => cases mode <;> cases given <;> simp [denseSymm, symmSource]
  | array dims d => cases mode <;> cases given <;> simp [denseSymm, symmSource]
  | hashable d => cases mode <;> simp [denseSymm, symmSource]
  | other => cases mode <;> simp [denseSymm, symmSource]

/-- **C157.** `DenseEquivariant` on a periodic lattice with a point group, modes "auto" and "fft": the group convolution over the space
    group. -/
theorem C157_dense_equivariant_lattice (irr : List (List Int) → Except Err (List (Irrep ℂ))) (shape : List Nat) (spc : Nat)
    (sg autos : List (List Int)) (hL : IsSpaceGroup shape spc sg) (hG : IsGroup (shape.prod * spc) sg) (own : Bool)
    (spaceGroup : Option γ → Except Err (List (List Int))) (pg : Option γ) (hpg : pg ≠ none ∨ own = true) (hsg : spaceGroup pg = .ok sg)
    (given : Option (List Nat)) (mode : Mode) (hm : mode = .auto ∨ mode = .fft) :
    ∃ L T, denseEquivariant irr (.lattice shape own spaceGroup autos) mode given pg = .ok L ∧ Grp.productTable sg = .ok T
      ∧ ∀ (inF : Nat) (b : Option (Nat → ℂ)) (w : Nat → Nat → Nat → ℂ) (x : FMap ℂ) (o : Nat), ∀ q < sg.length,
        equivApply sg.length inF L b w x o q = convolve sg.length inF (Grp.entry T) b w x o q := by
  have hc : (pg.isSome || own) = true := by
    rcases hpg with h | h
    · cases pg with
      | none => exact absurd rfl h
      | some _ => rfl
    · rw [h]; simp
  obtain ⟨T, hT⟩ := table_exists hG
  refine ⟨.equivFFT (.table T) shape, T, ?_, hT, fun inF b w x o q hq => equiv_fft _ inF hL hG hT b w x o q hq⟩
  unfold denseEquivariant
  simp only [hc, if_true, hsg]
  rcases hm with rfl | rfl <;> · unfold equivOfLattice equivFFTOf; simp only [hT]

/-- **C157.** `DenseEquivariant` on a group, modes "auto", "irreps" and "matrix": the same group convolution, if `irrep_matrices` returns
    a complete set of irreducible representations. -/
theorem C157_dense_equivariant_group (irr : List (List Int) → Except Err (List (Irrep ℂ))) (n : Nat) (rows : List (List Int))
    (hG : IsGroup n rows) (T : List (List Nat)) (hT : Grp.productTable rows = .ok T) (ρ : List (Irrep ℂ)) (hi : irr rows = .ok ρ)
    (hρ : IsCompleteIrreps rows.length (Grp.entry T) ρ) (pg : Option γ) (given : Option (List Nat)) (mode : Mode)
    (hm : mode = .auto ∨ mode = .irreps ∨ mode = .matrix) :
    ∃ L, denseEquivariant irr (.group rows) mode given pg = .ok L
      ∧ ∀ (inF : Nat) (b : Option (Nat → ℂ)) (w : Nat → Nat → Nat → ℂ) (x : FMap ℂ) (o : Nat), ∀ q < rows.length,
        equivApply rows.length inF L b w x o q = convolve rows.length inF (Grp.entry T) b w x o q := by
  have h1 : ∀ L, equivOfGroup irr rows mode given = .ok L → denseEquivariant irr (Arg.group (γ := γ) rows) mode given pg = .ok L := fun L h => h
  rcases hm with rfl | rfl | rfl
  · exact ⟨_, h1 _ (by unfold equivOfGroup; simp only [hi]), fun inF b w x o q hq => equiv_irrep inF hG hT ρ hρ b w x o q hq⟩
  · exact ⟨_, h1 _ (by unfold equivOfGroup; simp only [hi]), fun inF b w x o q hq => equiv_irrep inF hG hT ρ hρ b w x o q hq⟩
  · exact ⟨_, h1 _ (by unfold equivOfGroup; simp only [hT]), fun inF b w x o q hq => equiv_matrix _ inF hG hT b w x o q hq⟩

/-! ## GCNN -/

/-- the feature maps of a network whose layers compute the specified transforms. -/
theorem hidden_network (n m : Nat) (perms pt : Nat → Nat → Nat) (feats : Nat → Nat) (act outAct : ℂ → ℂ) (L0 L : Layer)
    (h0 : ∀ (b : Option (Nat → ℂ)) (w : Nat → Nat → ℂ) (x : Nat → ℂ), ∀ f < feats 0, ∀ q < m, symmApply n (feats 0) L0 b w x f q = first n perms b w x f q)
    (h1 : ∀ (inF : Nat) (b : Option (Nat → ℂ)) (w : Nat → Nat → Nat → ℂ) (x : FMap ℂ) (o : Nat), ∀ q < m,
      equivApply m inF L b w x o q = convolve m inF pt b w x o q)
    (b0 : Option (Nat → ℂ)) (w0 : Nat → Nat → ℂ) (b : Nat → Option (Nat → ℂ)) (w : Nat → Nat → Nat → Nat → ℂ) (x : Nat → ℂ) (k : Nat) :
    ∀ f < feats k, ∀ q < m,
      gcnnHidden act outAct (symmApply n (feats 0) L0 b0 w0 x) ((List.range k).map fun l => equivApply m (feats l) L (b l) (w l)) f q
        = outAct (network n m perms pt feats act b0 w0 b w x k f q) := by
  have key : ∀ k, ∀ f < feats k, ∀ q < m,
      (((List.range k).map fun l => equivApply m (feats l) L (b l) (w l)).foldl (fun x layer => layer fun f g => act (x f g))
        (symmApply n (feats 0) L0 b0 w0 x)) f q = network n m perms pt feats act b0 w0 b w x k f q := by
    intro k
    induction k with
    | zero => intro f hf q hq; exact h0 b0 w0 x f hf q hq
    | succ k ih =>
      intro f hf q hq
      rw [List.range_succ, List.map_append, List.foldl_append]
      simp only [List.map_cons, List.map_nil, List.foldl_cons, List.foldl_nil]
      rw [h1 _ _ _ _ f q hq]
      unfold network convolve
      congr 1
      refine sum_congr rfl fun i hi => sum_congr rfl fun g hg => ?_
      beta_reduce
      rw [ih i (mem_range.1 hi) g (mem_range.1 hg)]
  intro f hf q hq
  unfold gcnnHidden
  rw [key k f hf q hq]

/-- the arguments `layers`, `features` and `characters` of a `GCNN` with `k + 1` layers (specification): one number of features for all layers
    or a tuple with one for each; characters all 1 or a HashableArray;
    no parity. -/
def Described (a : GCNNArgs γ) (k m : Nat) (feats : List Nat) (chars : List ℂ) : Prop :=
  a.layers = some (k + 1) ∧ feats.length = k + 1
    ∧ (a.features = .tuple feats ∨ ∃ F, a.features = .int F ∧ feats = List.replicate (k + 1) F)
    ∧ (a.characters = .hashable chars ∨ (a.characters = .none ∧ chars = List.replicate m 1))
    ∧ (a.parity = none ∨ a.parity = some 0)

theorem gcnn_ok (irr : List (List Int) → Except Err (List (Irrep ℂ))) (a : GCNNArgs γ) (k : Nat) (feats : List Nat) (chars : List ℂ) (s : Source)
    (hd : Described a k s.data.length feats chars) (hs : gcnnSource a = .ok s) (hsh : s.mode = .fft → s.shape ≠ none) (c : Conv)
    (hc : gcnnConv irr a s = .ok c) :
    gcnn irr a = .ok ⟨s.data, c, some (k + 1), some feats, chars, none⟩ := by
  obtain ⟨d1, d2, d3, d4, d7⟩ := hd
  have hp : (if a.parity = some 0 then none else a.parity) = none := by
    rcases d7 with h | h <;> rw [h] <;> rfl
  have hns : ¬(s.mode = .fft ∧ s.shape = none) := fun h => hsh h.1 h.2
  have hf : gcnnFeatures a.features a.layers = .ok (some feats) := by
    rcases d3 with h | ⟨F, h, rfl⟩
    · rw [h]; rfl
    · rw [h, d1]; rfl
  have hch : gcnnChars a.characters s.data.length = .ok chars := by
    rcases d4 with h | ⟨h, rfl⟩
    · rw [h]; rfl
    · rw [h]; rfl
  unfold gcnn
  rw [hs]
  simp only [if_neg hns, hf, hch, hc]
  rw [d1, hp]

theorem model_amplitude (n : Nat) (rows : List (List Int)) (pt : Nat → Nat → Nat) (conv : Conv) (k : Nat) (feats : List Nat) (chars : List ℂ)
    (par : Option Int) (act outAct exp : ℂ → ℂ)
    (h0 : ∀ (b : Option (Nat → ℂ)) (w : Nat → Nat → ℂ) (x : Nat → ℂ), ∀ f < feats.getD 0 0, ∀ q < rows.length,
      symmApply n (feats.getD 0 0) (GCNNModel.firstLayer ⟨.perms rows, conv, some (k + 1), some feats, chars, par⟩) b w x f q = first n (readRows rows) b w x f q)
    (h1 : ∀ (inF : Nat) (b : Option (Nat → ℂ)) (w : Nat → Nat → Nat → ℂ) (x : FMap ℂ) (o : Nat), ∀ q < rows.length,
      equivApply rows.length inF (GCNNModel.convLayer ⟨.perms rows, conv, some (k + 1), some feats, chars, par⟩) b w x o q
        = convolve rows.length inF pt b w x o q)
    (b0 : Option (Nat → ℂ)) (w0 : Nat → Nat → ℂ) (b : Nat → Option (Nat → ℂ)) (w : Nat → Nat → Nat → Nat → ℂ) (x : Nat → ℂ) :
    GCNNModel.amplitude ⟨.perms rows, conv, some (k + 1), some feats, chars, par⟩ n act outAct exp b0 w0 b w x
      = amplitude n rows.length (readRows rows) pt k (fun l => feats.getD l 0) (fun g => chars.getD g 0) act outAct exp b0 w0 b w x := by
  unfold GCNNModel.amplitude gcnnAmplitude amplitude
  simp only [Option.getD_some, Nat.add_sub_cancel, Data.length]
  refine sum_congr rfl fun f hf => sum_congr rfl fun g hg => ?_
  rw [hidden_network n rows.length (readRows rows) pt (fun l => feats.getD l 0) act outAct _ _ h0 h1 b0 w0 b w x k f (mem_range.1 hf) g (mem_range.1 hg)]

/-- **C157.** `GCNN` on a periodic lattice with a point group, modes "auto", "fft" and "irreps": the model's amplitude is that of the group
    convolutional network over the space group; in particular it does not depend on the mode. -/
theorem C157_gcnn_lattice (irr : List (List Int) → Except Err (List (Irrep ℂ))) (a : GCNNArgs γ) (shape : List Nat) (spc : Nat)
    (sg autos : List (List Int)) (hL : IsSpaceGroup shape spc sg) (hG : IsGroup (shape.prod * spc) sg) (own : Bool)
    (spaceGroup : Option γ → Except Err (List (List Int))) (hsym : a.symmetries = .lattice shape own spaceGroup autos)
    (hpg : a.pointGroup ≠ none ∨ own = true) (hsg : spaceGroup a.pointGroup = .ok sg) (T : List (List Nat))
    (hT : Grp.productTable sg = .ok T) (k : Nat) (feats : List Nat) (chars : List ℂ) (hd : Described a k sg.length feats chars)
    (d5 : a.productTable = none) (d6 : a.irreps = none)
    (hm : a.mode = .auto ∨ a.mode = .fft ∨ (a.mode = .irreps ∧ ∃ ρ, irr sg = .ok ρ ∧ IsCompleteIrreps sg.length (Grp.entry T) ρ)) :
    ∃ M, gcnn irr a = .ok M ∧ M.symmetries = .perms sg
      ∧ ∀ (act outAct exp : ℂ → ℂ) (b0 : Option (Nat → ℂ)) (w0 : Nat → Nat → ℂ) (b : Nat → Option (Nat → ℂ)) (w : Nat → Nat → Nat → Nat → ℂ) (x : Nat → ℂ),
        M.amplitude (shape.prod * spc) act outAct exp b0 w0 b w x
          = amplitude (shape.prod * spc) sg.length (readRows sg) (Grp.entry T) k (fun l => feats.getD l 0) (fun g => chars.getD g 0)
              act outAct exp b0 w0 b w x := by
  have hc : (a.pointGroup.isSome || own) = true := by
    rcases hpg with h | h
    · cases hp : a.pointGroup with
      | none => exact absurd hp h
      | some _ => rfl
    · rw [h]; simp
  have hsrc : gcnnSource a = .ok ⟨.perms sg, some sg, if a.mode = .auto then .fft else a.mode, some shape⟩ := by
    unfold gcnnSource
    rw [hsym]
    simp only [hc, if_true, hsg]
  have fftCase : (a.mode = .auto ∨ a.mode = .fft) → gcnnConv irr a ⟨.perms sg, some sg, if a.mode = .auto then .fft else a.mode, some shape⟩ = .ok (.fft T shape) := by
    intro h
    have : (if a.mode = .auto then Mode.fft else a.mode) = .fft := by
      rcases h with h | h <;> rw [h] <;> rfl
    unfold gcnnConv
    simp only [this, d5, hT]
  rcases hm with h | h | ⟨h, ρ, hi, hρ⟩
  · refine ⟨_, gcnn_ok irr a k feats chars ⟨.perms sg, some sg, if a.mode = .auto then .fft else a.mode, some shape⟩ hd hsrc (fun _ => by simp) _ (fftCase (.inl h)), rfl, fun act outAct exp b0 w0 b w x => ?_⟩
    exact model_amplitude _ sg (Grp.entry T) (.fft T shape) k feats chars _ act outAct exp (fun b w x f hf q hq => symm_fft _ hL hG b w x f q hf hq)
      (fun inF b w x o q hq => equiv_fft _ inF hL hG hT b w x o q hq) b0 w0 b w x
  · refine ⟨_, gcnn_ok irr a k feats chars ⟨.perms sg, some sg, if a.mode = .auto then .fft else a.mode, some shape⟩ hd hsrc (fun _ => by simp) _ (fftCase (.inr h)), rfl, fun act outAct exp b0 w0 b w x => ?_⟩
    exact model_amplitude _ sg (Grp.entry T) (.fft T shape) k feats chars _ act outAct exp (fun b w x f hf q hq => symm_fft _ hL hG b w x f q hf hq)
      (fun inF b w x o q hq => equiv_fft _ inF hL hG hT b w x o q hq) b0 w0 b w x
  · have hcv : gcnnConv irr a ⟨.perms sg, some sg, if a.mode = .auto then .fft else a.mode, some shape⟩ = .ok (.irrep ρ) := by
      have : (if a.mode = .auto then Mode.fft else a.mode) = .irreps := by rw [h]; rfl
      unfold gcnnConv
      simp only [this, d6, hi]
    refine ⟨_, gcnn_ok irr a k feats chars ⟨.perms sg, some sg, if a.mode = .auto then .fft else a.mode, some shape⟩ hd hsrc (fun _ => by simp) _ hcv, rfl, fun act outAct exp b0 w0 b w x => ?_⟩
    exact model_amplitude _ sg (Grp.entry T) (.irrep ρ) k feats chars _ act outAct exp (fun b w x f hf q hq => symm_matrix _ _ sg b w x f q hf hq)
      (fun inF b w x o q hq => equiv_irrep inF hG hT ρ hρ b w x o q hq) b0 w0 b w x

/-- **C157.** `GCNN` on a group, modes "auto" and "irreps". -/
theorem C157_gcnn_group (irr : List (List Int) → Except Err (List (Irrep ℂ))) (a : GCNNArgs γ) (n : Nat) (rows : List (List Int))
    (hG : IsGroup n rows) (hsym : a.symmetries = .group rows) (T : List (List Nat)) (hT : Grp.productTable rows = .ok T)
    (ρ : List (Irrep ℂ)) (hi : irr rows = .ok ρ) (hρ : IsCompleteIrreps rows.length (Grp.entry T) ρ) (k : Nat) (feats : List Nat)
    (chars : List ℂ) (hd : Described a k rows.length feats chars) (d6 : a.irreps = none)
    (hm : a.mode = .auto ∨ a.mode = .irreps) :
    ∃ M, gcnn irr a = .ok M ∧ M.symmetries = .perms rows
      ∧ ∀ (act outAct exp : ℂ → ℂ) (b0 : Option (Nat → ℂ)) (w0 : Nat → Nat → ℂ) (b : Nat → Option (Nat → ℂ)) (w : Nat → Nat → Nat → Nat → ℂ) (x : Nat → ℂ),
        M.amplitude n act outAct exp b0 w0 b w x
          = amplitude n rows.length (readRows rows) (Grp.entry T) k (fun l => feats.getD l 0) (fun g => chars.getD g 0) act outAct exp b0 w0 b w x := by
  have hmode : (if a.mode = .auto then Mode.irreps else a.mode) = .irreps := by
    rcases hm with h | h <;> rw [h] <;> rfl
  have hsrc : gcnnSource a = .ok ⟨.perms rows, some rows, .irreps, a.shape⟩ := by
    unfold gcnnSource
    rw [hsym]
    simp only [hmode]
  have hcv : gcnnConv irr a ⟨.perms rows, some rows, .irreps, a.shape⟩ = .ok (.irrep ρ) := by
    unfold gcnnConv
    simp only [d6, hi]
  refine ⟨_, gcnn_ok irr a k feats chars ⟨.perms rows, some rows, .irreps, a.shape⟩ hd hsrc (by simp) _ hcv, rfl, fun act outAct exp b0 w0 b w x => ?_⟩
  exact model_amplitude _ rows (Grp.entry T) (.irrep ρ) k feats chars _ act outAct exp (fun b w x f hf q hq => symm_matrix _ _ rows b w x f q hf hq)
    (fun inF b w x o q hq => equiv_irrep inF hG hT ρ hρ b w x o q hq) b0 w0 b w x

/-- **C157.** `GCNN` on an array of permutations with irreps given (modes "auto", "irreps"), or with a product table and the shape of the
    translation group given (modes "auto", "fft"; no irreps given). -/
theorem C157_gcnn_array (irr : List (List Int) → Except Err (List (Irrep ℂ))) (a : GCNNArgs γ) (n : Nat) (rows : List (List Int))
    (hG : IsGroup n rows) (dims : List Nat)
    (hsym : a.symmetries = .array dims (.perms rows) ∨ a.symmetries = .sequence (.perms rows) ∨ a.symmetries = .hashable (.perms rows))
    (T : List (List Nat)) (hT : Grp.productTable rows = .ok T) (k : Nat) (feats : List Nat) (chars : List ℂ)
    (hd : Described a k rows.length feats chars)
    (hm : (∃ ρ, a.irreps = some ρ ∧ IsCompleteIrreps rows.length (Grp.entry T) ρ ∧ (a.mode = .auto ∨ a.mode = .irreps))
      ∨ (∃ shape spc, a.irreps = none ∧ a.productTable = some T ∧ a.shape = some shape ∧ IsSpaceGroup shape spc rows ∧ n = shape.prod * spc
          ∧ (a.mode = .auto ∨ a.mode = .fft))) :
    ∃ M, gcnn irr a = .ok M ∧ M.symmetries = .perms rows
      ∧ ∀ (act outAct exp : ℂ → ℂ) (b0 : Option (Nat → ℂ)) (w0 : Nat → Nat → ℂ) (b : Nat → Option (Nat → ℂ)) (w : Nat → Nat → Nat → Nat → ℂ) (x : Nat → ℂ),
        M.amplitude n act outAct exp b0 w0 b w x
          = amplitude n rows.length (readRows rows) (Grp.entry T) k (fun l => feats.getD l 0) (fun g => chars.getD g 0) act outAct exp b0 w0 b w x := by
  have hcont : a.symmetries.contents = some (.perms rows) := by
    rcases hsym with h | h | h <;> rw [h] <;> rfl
  have hga : gcnnSource a = gcnnArray a := by
    unfold gcnnSource
    rcases hsym with h | h | h <;> rw [h]
  rcases hm with ⟨ρ, hi, hρ, hmode⟩ | ⟨shape, spc, hi, hpt, hsh, hL, rfl, hmode⟩
  · have hsrc : gcnnSource a = .ok ⟨.perms rows, none, .irreps, a.shape⟩ := by
      rw [hga]
      unfold gcnnArray
      rw [if_pos ⟨by rw [hi]; rfl, hmode.symm⟩, hcont]
    have hcv : gcnnConv irr a ⟨.perms rows, none, .irreps, a.shape⟩ = .ok (.irrep ρ) := by
      unfold gcnnConv
      simp only [hi]
    refine ⟨_, gcnn_ok irr a k feats chars ⟨.perms rows, none, .irreps, a.shape⟩ hd hsrc (by simp) _ hcv, rfl, fun act outAct exp b0 w0 b w x => ?_⟩
    exact model_amplitude _ rows (Grp.entry T) (.irrep ρ) k feats chars _ act outAct exp (fun b w x f hf q hq => symm_matrix _ _ rows b w x f q hf hq)
      (fun inF b w x o q hq => equiv_irrep inF hG hT ρ hρ b w x o q hq) b0 w0 b w x
  · have hsrc : gcnnSource a = .ok ⟨.perms rows, none, .fft, some shape⟩ := by
      rw [hga]
      unfold gcnnArray
      have h1 : ¬(a.irreps.isSome = true ∧ (a.mode = .irreps ∨ a.mode = .auto)) := by rw [hi]; simp
      rw [if_neg h1, if_pos ⟨by rw [hpt]; rfl, hmode.symm⟩, hcont, hsh]
    have hcv : gcnnConv irr a ⟨.perms rows, none, .fft, some shape⟩ = .ok (.fft T shape) := by
      unfold gcnnConv
      simp only [hpt]
    refine ⟨_, gcnn_ok irr a k feats chars ⟨.perms rows, none, .fft, some shape⟩ hd hsrc (by simp) _ hcv, rfl, fun act outAct exp b0 w0 b w x => ?_⟩
    exact model_amplitude _ rows (Grp.entry T) (.fft T shape) k feats chars _ act outAct exp (fun b w x f hf q hq => symm_fft _ hL hG b w x f q hf hq)
      (fun inF b w x o q hq => equiv_fft _ inF hL hG hT b w x o q hq) b0 w0 b w x

/-- **C157.** what `GCNN` refuses: arrays without `irreps` or `product_table` and unsuitable modes (ValueError), mode "fft" without a shape
    (TypeError), a number of features without a number of layers (TypeError), groups with mode "matrix" or an unknown mode (ValueError). -/
theorem C157_gcnn_rejects (irr : List (List Int) → Except Err (List (Irrep ℂ))) (a : GCNNArgs γ) :
    ((∃ d dims, a.symmetries = .array dims d ∨ a.symmetries = .sequence d ∨ a.symmetries = .hashable d) →
      (a.irreps = none ∨ (a.mode ≠ .irreps ∧ a.mode ≠ .auto)) → (a.productTable = none ∨ (a.mode ≠ .fft ∧ a.mode ≠ .auto)) →
        gcnn irr a = .error .valueError)
    ∧ (∀ rows, a.symmetries = .group rows → a.mode = .fft → a.shape = none → gcnn irr a = .error .typeError)
    ∧ (∀ rows F, a.symmetries = .group rows → a.mode ≠ .fft → a.features = .int F → a.layers = none → gcnn irr a = .error .typeError)
    ∧ ∀ rows, a.symmetries = .group rows → (a.mode = .matrix ∨ a.mode = .unknown) → ∃ e, gcnn irr a = .error e := by
  refine ⟨?_, ?_, ?_, ?_⟩
  · rintro ⟨d, dims, hsym⟩ hi hp
    have hga : gcnnSource a = gcnnArray a := by
      unfold gcnnSource
      rcases hsym with h | h | h <;> rw [h]
    have h1 : ¬(a.irreps.isSome = true ∧ (a.mode = .irreps ∨ a.mode = .auto)) := by
      rintro ⟨h1, h2⟩
      rcases hi with h | ⟨h, h'⟩
      · rw [h] at h1; cases h1
      · rcases h2 with e | e
        · exact h e
        · exact h' e
    have h2 : ¬(a.productTable.isSome = true ∧ (a.mode = .fft ∨ a.mode = .auto)) := by
      rintro ⟨h1, h2⟩
      rcases hp with h | ⟨h, h'⟩
      · rw [h] at h1; cases h1
      · rcases h2 with e | e
        · exact h e
        · exact h' e
    unfold gcnn
    rw [hga]
    unfold gcnnArray
    rw [if_neg h1, if_neg h2]
  · intro rows hs hm hsh
    unfold gcnn gcnnSource
    rw [hs]
    simp [hm, hsh]
  · intro rows F hs hm hf hl
    unfold gcnn gcnnSource
    rw [hs]
    have h1 : ¬((if a.mode = .auto then Mode.irreps else a.mode) = .fft ∧ a.shape = none) := by
      rintro ⟨h, -⟩
      split at h
      · cases h
      · exact hm h
    simp only [if_neg h1, hf, hl, gcnnFeatures]
  · intro rows hs hm
    unfold gcnn gcnnSource
    rw [hs]
    have h0 : (if a.mode = .auto then Mode.irreps else a.mode) = a.mode := by rcases hm with h | h <;> rw [h] <;> rfl
    have h1 : ¬(a.mode = .fft ∧ a.shape = none) := by rcases hm with h | h <;> rw [h] <;> simp
    have h2 : gcnnConv irr a ⟨.perms rows, some rows, a.mode, a.shape⟩ = .error .valueError := by
      unfold gcnnConv
      rcases hm with h | h <;> simp only [h]
    simp only [h0, if_neg h1, h2]
    cases gcnnFeatures a.features a.layers with
    | error e => exact ⟨e, rfl⟩
    | ok f =>
      simp only
      cases gcnnChars a.characters (Data.perms rows).length with
      | error e => exact ⟨e, rfl⟩
      | ok c => exact ⟨_, rfl⟩

/-- **C157.** the amplitude these networks have transforms with the characters: permuting the sites by an element `h` multiplies it by `c`
    if the character of "`h`, then `g`" is `c` times that of `g`; with characters all 1 it is invariant. -/
theorem C157_amplitude_symmetry (n : Nat) (rows : List (List Int)) (hG : IsGroup n rows) (T : List (List Nat))
    (hT : Grp.productTable rows = .ok T) (k : Nat) (feats : Nat → Nat) (chars : Nat → ℂ) (h : Nat) (hh : h < rows.length) (c : ℂ)
    (hc : ∀ g < rows.length, ∀ l < rows.length, (∀ i < n, readRows rows l i = readRows rows g (readRows rows h i)) → chars l = c * chars g)
    (act outAct exp : ℂ → ℂ) (b0 : Option (Nat → ℂ)) (w0 : Nat → Nat → ℂ) (b : Nat → Option (Nat → ℂ)) (w : Nat → Nat → Nat → Nat → ℂ) (x : Nat → ℂ) :
    amplitude n rows.length (readRows rows) (Grp.entry T) k feats chars act outAct exp b0 w0 b w (fun i => x (readRows rows h i))
      = c * amplitude n rows.length (readRows rows) (Grp.entry T) k feats chars act outAct exp b0 w0 b w x := by
  have G := permsOf_group n rows hG.1 hG.2.1 hG.2.2
  have P := permsOf_table n rows hG.1 T hT
  rw [← readRows_eq] at G P
  obtain ⟨s, S⟩ := exists_translate n _ _ G h hh
  have R : ∀ l, ∀ f, ∀ g < rows.length, network n rows.length (readRows rows) (Grp.entry T) feats act b0 w0 b w (fun i => x (readRows rows h i)) l f (s g)
      = network n rows.length (readRows rows) (Grp.entry T) feats act b0 w0 b w x l f g := by
    intro l
    induction l with
    | zero =>
      intro f g hg
      unfold network first
      congr 1
      rw [← sum_range_perm (G.lt h hh) (G.inj h hh) fun i => x i * w0 (readRows rows g i) f]
      exact sum_congr rfl fun i hi => by rw [S.2 g hg i (mem_range.1 hi)]
    | succ l ih =>
      intro f g hg
      unfold network convolve
      congr 1
      refine sum_congr rfl fun i _ => ?_
      rw [← sum_range_perm S.1.1 S.1.2.1]
      refine sum_congr rfl fun g' hg' => ?_
      beta_reduce
      rw [ih i g' (mem_range.1 hg'), table_translate n rows.length _ _ G P h hh s S g' g (mem_range.1 hg') hg]
  unfold amplitude
  rw [mul_sum]
  refine sum_congr rfl fun f _ => ?_
  rw [mul_sum, ← sum_range_perm S.1.1 S.1.2.1]
  refine sum_congr rfl fun g hg => ?_
  rw [R k f g (mem_range.1 hg), hc g (mem_range.1 hg) (s g) (S.1.1 g (mem_range.1 hg)) (S.2 g (mem_range.1 hg)), mul_assoc]

/-- **C157.** for a group of permutations the matrices of C152 are complete, so that they meet the hypothesis of the theorems above. -/
theorem C157_irreps (n : Nat) (rows : List (List Int)) (hG : IsGroup n rows) (hne : rows ≠ []) (T : List (List Nat))
    (hT : Grp.productTable rows = .ok T) :
    ∃ (H : Subgroup (Equiv.Perm (Fin n))) (l : List H), l.map Subtype.val = rows.map (Grp.toPerm n) ∧ (∀ g, g ∈ l) ∧
      ∀ (inv : List Nat) (real cplx : CharTab.Eigen) (e e' : Nat → ℂ) (chars : List (H → ℂ)) (Ds : List CharTab.Irrep), CharTab.IsInv l inv →
        CharTab.IsEigh T.length (CharTab.invariantMatrix T inv e) real.ev real.v →
        CharTab.IsEigh T.length (CharTab.invariantMatrix T inv e') cplx.ev cplx.v →
        chars.Nodup → (∀ χ, χ ∈ chars ↔ Verif.Irrep.IsIrrChar χ) →
        CharTab.irrepMatrices T inv real cplx (chars.map fun χ => l.map χ) = .ok Ds →
        (∀ (k : Nat) D χ, Ds[k]? = some D → chars[k]? = some χ → (D.dim : ℂ) = χ 1) →
        IsCompleteIrreps rows.length (Grp.entry T) (Ds.map CharTab.asLayer) := by
  have hTab := (Grp.C41_permutations n rows hG.1 hG.2.1 T hT).2
  have hne' : rows.map (Grp.toPerm n) ≠ [] := by simpa using hne
  obtain ⟨l, hl, hTl, hall⟩ := CharTab.table_groupOf hTab hne'
  have : Fintype (CharTab.groupOf hTab hne') := Fintype.ofFinite _
  refine ⟨CharTab.groupOf hTab hne', l, hl, hall, fun inv real cplx e e' chars Ds hinv hr hc hnd hch h hdim => ?_⟩
  rw [← table_length hG hT]
  exact CharTab.C152_complete hTl hall hinv real cplx e e' hr hc chars hnd hch Ds h hdim

/-! ## C158: where the functions depart from their documentation -/

/-- **C158** (refuted). "symmetries … can be given by a nk.graph.Graph" (symmetric_linear.py:704, equivariant.py:553): for a graph, and for a
    lattice without point group, `DenseEquivariant` and `GCNN` end in a NameError in every mode, whatever the other arguments. -/
theorem C158_graph_refuted (irr : List (List Int) → Except Err (List (Irrep ℂ))) (autos : List (List Int)) (ext : List Nat)
    (spaceGroup : Option γ → Except Err (List (List Int))) (sym : Arg γ)
    (hs : sym = .graph autos ∨ sym = .lattice ext false spaceGroup autos) :
    (∀ mode given, denseEquivariant irr sym mode given none = .error .nameError)
    ∧ ∀ a : GCNNArgs γ, a.symmetries = sym → a.pointGroup = none → gcnn irr a = .error .nameError := by
  refine ⟨fun mode given => by rcases hs with rfl | rfl <;> rfl, fun a h hp => ?_⟩
  unfold gcnn gcnnSource
  rw [h, hp]
  rcases hs with rfl | rfl <;> rfl

/-- **C158** (refuted). "mode: string 'fft, irreps, matrix, auto'": on a lattice whose space group is known, `DenseEquivariant` ends in an
    AttributeError for two of the four modes; `GCNN` has no mode "matrix" at all. -/
theorem C158_modes_refuted (irr : List (List Int) → Except Err (List (Irrep ℂ))) :
    (∀ ext own (spaceGroup : Option γ → Except Err (List (List Int))) autos given pg sg mode, (pg ≠ none ∨ own = true) → spaceGroup pg = .ok sg →
      (mode = .irreps ∨ mode = .matrix) →
      denseEquivariant irr (.lattice ext own spaceGroup autos) mode given pg = .error .attributeError)
    ∧ ∀ (a : GCNNArgs γ) M, a.mode = .matrix → gcnn irr a ≠ .ok M := by
  refine ⟨?_, ?_⟩
  · intro ext own spaceGroup autos given pg sg mode hpg hsg hm
    have hc : (pg.isSome || own) = true := by
      rcases hpg with h | h
      · cases pg with
        | none => exact absurd rfl h
        | some _ => rfl
      · rw [h]; simp
    unfold denseEquivariant
    simp only [hc, if_true, hsg]
    rcases hm with rfl | rfl <;> rfl
  · intro a M hm h
    unfold gcnn at h
    split at h
    · cases h
    · rename_i s hs
      have hmode : s.mode = .matrix := by
        unfold gcnnSource at hs
        split at hs
        · split at hs
          · split at hs
            · cases hs
            · cases hs; rw [hm]; rfl
          · cases hs
        · cases hs
        · cases hs; rw [hm]; rfl
        · unfold gcnnArray at hs
          rw [hm] at hs
          simp at hs
      have hcv : gcnnConv irr a s = .error .valueError := by unfold gcnnConv; rw [hmode]
      rw [hcv] at h
      split at h
      · cases h
      · split at h
        · cases h
        · split at h <;> cases h

/-- **C158** (refuted). a product table: an unknown mode is taken for "fft"; with mode "auto" and no shape there is a TypeError about
    `mode=fft`; as a nested list the table is taken for irreducible representations; as a `HashableArray` it is an AttributeError, and
    permutations in a `HashableArray` are a ValueError for `DenseSymm`; an array which is not square returns an exception object. -/
theorem C158_product_table_refuted (irr : List (List Int) → Except Err (List (Irrep ℂ))) (T : List (List Nat)) (n m : Nat) (hnm : n ≠ m)
    (d : Data) (shape : List Nat) (pg : Option γ) :
    denseEquivariant irr (.array [n, n] (.table T)) .unknown (some shape) pg = .ok (.equivFFT (.table T) shape)
    ∧ denseEquivariant irr (.array [n, n] (.table T)) .auto none pg = .error .typeError
    ∧ denseEquivariant irr (.sequence (.table T)) .auto none pg = .ok (.equivIrrep (.table T))
    ∧ (∀ mode given, denseEquivariant irr (.hashable d) mode given pg = .error .attributeError)
    ∧ (∀ mode given, denseSymm (.hashable d) pg mode given = .error .valueError)
    ∧ ∀ mode given, denseEquivariant irr (.array [n, m] d) mode given pg = .ok .exceptionObject := by
  refine ⟨?_, ?_, rfl, fun _ _ => rfl, fun _ _ => rfl, fun mode given => ?_⟩
  · unfold denseEquivariant equivOfArray
    simp
  · unfold denseEquivariant equivOfArray
    simp
  · unfold denseEquivariant equivOfArray
    simp [hnm]

/-- **C158** (refuted). "characters: Array specifying the characters": a numpy array with at least two entries is a ValueError, whatever
    the other arguments; `GCNN` never returns a model for it. -/
theorem C158_characters_refuted (irr : List (List Int) → Except Err (List (Irrep ℂ))) (a : GCNNArgs γ) (c c' : ℂ) (l : List ℂ)
    (h : a.characters = .ndarray (c :: c' :: l)) (M : GCNNModel) : gcnn irr a ≠ .ok M := by
  intro hM
  unfold gcnn at hM
  rw [h] at hM
  split at hM
  · cases hM
  · split at hM
    · cases hM
    · split at hM
      · cases hM
      · cases hM

/-- **C158** (what holds). an array with the product table of a group: mode "matrix" gives the group convolution; mode "fft" does if the
    table is that of a space group with the given shape. -/
theorem C158_product_table_partial (irr : List (List Int) → Except Err (List (Irrep ℂ))) (n : Nat) (rows : List (List Int))
    (hG : IsGroup n rows) (T : List (List Nat)) (hT : Grp.productTable rows = .ok T) (pg : Option γ) (given : Option (List Nat)) (mode : Mode)
    (hm : mode = .matrix ∨ (mode = .fft ∧ ∃ shape spc, given = some shape ∧ n = shape.prod * spc ∧ IsSpaceGroup shape spc rows)) :
    ∃ L, denseEquivariant irr (.array [rows.length, rows.length] (.table T)) mode given pg = .ok L
      ∧ ∀ (inF : Nat) (b : Option (Nat → ℂ)) (w : Nat → Nat → Nat → ℂ) (x : FMap ℂ) (o : Nat), ∀ q < rows.length,
        equivApply rows.length inF L b w x o q = convolve rows.length inF (Grp.entry T) b w x o q := by
  rcases hm with rfl | ⟨rfl, shape, spc, rfl, rfl, hL⟩
  · refine ⟨.equivMatrix (.table T), ?_, fun inF b w x o q hq => equiv_matrix _ inF hG hT b w x o q hq⟩
    unfold denseEquivariant equivOfArray
    simp
  · refine ⟨.equivFFT (.table T) shape, ?_, fun inF b w x o q hq => equiv_fft _ inF hL hG hT b w x o q hq⟩
    unfold denseEquivariant equivOfArray
    simp

/-! ## the hypotheses are met -/

/-- the translations of a ring of three sites, in the order of the space group. -/
def ring3 : List (List Int) := [[0, 1, 2], [2, 0, 1], [1, 2, 0]]

theorem ring3_group : IsGroup 3 ring3 := by
  refine ⟨by unfold Grp.IsPerm; decide +kernel, by decide, by decide +kernel⟩

theorem ring3_space : IsSpaceGroup [3] 1 ring3 := by
  refine ⟨by simp, by simp, [Grp.arange 3], by decide +kernel⟩

theorem ring3_table : Grp.productTable ring3 = .ok [[0, 1, 2], [2, 0, 1], [1, 2, 0]] := by decide +kernel

/-- A lattice with one layer of convolutions meets the hypotheses of `C157_gcnn_lattice`; the network exists. -/
example (irr : List (List Int) → Except Err (List (Irrep ℂ))) : ∃ M, gcnn irr (γ := Unit) { symmetries := .lattice [3] true (fun _ => .ok ring3) ring3, layers := some 2, features := .int 4 } = .ok M :=
  let ⟨M, h, _⟩ := C157_gcnn_lattice irr (γ := Unit) { symmetries := .lattice [3] true (fun _ => .ok ring3) ring3, layers := some 2, features := .int 4 }
    [3] 1 ring3 ring3 ring3_space ring3_group true (fun _ => .ok ring3) rfl (.inr rfl) rfl _ ring3_table 1 [4, 4] [1, 1, 1]
    ⟨rfl, rfl, .inr ⟨4, rfl, rfl⟩, .inr ⟨rfl, rfl⟩, .inl rfl⟩ rfl rfl (.inl rfl)
  ⟨M, h⟩

/-- and those of `C157_dense_symm_lattice`: the layer for mode "auto". -/
example : ∃ L, denseSymm (.lattice [3] true (fun _ => .ok ring3) ring3) (none : Option Unit) .auto none = .ok L :=
  let ⟨L, h, _⟩ := C157_dense_symm_lattice [3] 1 ring3 ring3 ring3_space ring3_group true (fun _ => .ok ring3) (none : Option Unit) (.inr rfl) rfl none .auto
    (.inl rfl)
  ⟨L, h⟩

/-- the exchange of two sites, and its two irreducible representations. -/
def swap2 : List (List Int) := [[0, 1], [1, 0]]

/-- see `swap2`. -/
def swapIrreps : List (Irrep ℂ) := [⟨1, fun _ _ _ => 1⟩, ⟨1, fun g _ _ => if g = 0 then 1 else -1⟩]

theorem swap2_group : IsGroup 2 swap2 := by
  refine ⟨by unfold Grp.IsPerm; decide +kernel, by decide, by decide +kernel⟩

theorem swap2_table : Grp.productTable swap2 = .ok [[0, 1], [1, 0]] := by decide +kernel

theorem swap2_complete : IsCompleteIrreps 2 (Grp.entry [[0, 1], [1, 0]]) swapIrreps := by
  have hlt : ∀ k, k < 2 ↔ k = 0 ∨ k = 1 := fun k => by omega
  constructor
  · intro r hr g hg k hk a ha b hb
    simp only [swapIrreps, List.mem_cons, List.not_mem_nil, or_false] at hr
    rw [hlt] at hg hk
    rcases hr with rfl | rfl <;> rcases hg with rfl | rfl <;> rcases hk with rfl | rfl <;> simp [Grp.entry]
  · intro g hg k hk
    rw [hlt] at hg hk
    rcases hg with rfl | rfl <;> rcases hk with rfl | rfl <;> simp [swapIrreps] <;> norm_num

/-- A group with an antisymmetric network meets the hypotheses of `C157_gcnn_group` and `C157_amplitude_symmetry`: exchanging the two
    sites changes the sign of its amplitude. -/
example : ∃ M, gcnn (fun _ => .ok swapIrreps) (γ := Unit) { symmetries := .group swap2, layers := some 3, features := .tuple [2, 5, 1], characters := .hashable [1, -1] } = .ok M
    ∧ ∀ act outAct exp b0 w0 b w (x : Nat → ℂ), M.amplitude 2 act outAct exp b0 w0 b w (fun i => x (1 - i)) = -M.amplitude 2 act outAct exp b0 w0 b w x := by
  obtain ⟨M, h, -, hM⟩ := C157_gcnn_group (fun _ => .ok swapIrreps) (γ := Unit)
    { symmetries := .group swap2, layers := some 3, features := .tuple [2, 5, 1], characters := .hashable [1, -1] } 2 swap2 swap2_group rfl _ swap2_table
    swapIrreps rfl swap2_complete 2 [2, 5, 1] [1, -1] ⟨rfl, rfl, .inl rfl, .inl rfl, .inl rfl⟩ rfl (.inl rfl)
  refine ⟨M, h, fun act outAct exp b0 w0 b w x => ?_⟩
  have hlt : ∀ k, k < 2 ↔ k = 0 ∨ k = 1 := fun k => by omega
  have hs := C157_amplitude_symmetry 2 swap2 swap2_group _ swap2_table 2 (fun l => [2, 5, 1].getD l 0) (fun g => [1, -1].getD g 0) 1 (by decide) (-1) ?_
    act outAct exp b0 w0 b w x
  · rw [hM, hM, ← neg_one_mul (amplitude _ _ _ _ _ _ _ _ _ _ _ _ _ _ x), ← hs]
    unfold amplitude
    refine sum_congr rfl fun f _ => sum_congr rfl fun g _ => ?_
    congr 3
  · intro g hg l hl hi
    rw [show swap2.length = 2 from rfl, hlt] at hg hl
    rcases hg with rfl | rfl <;> rcases hl with rfl | rfl
    · have := hi 0 (by decide); revert this; decide
    · simp
    · simp
    · have := hi 0 (by decide); revert this; decide

end Verif.LayerCtor
