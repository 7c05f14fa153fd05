import Verif.Props.Sparse
import Verif.Props.HamSymmetry

/-! C232: operators whose terms respect a constraint, on the constrained space. -/

set_option linter.unusedSectionVars false
set_option linter.unusedVariables false

namespace Verif.LocalOp
open Verif.Hilbert Verif.Sparse

variable {K : Type} [CommRing K] [DecidableEq K] [Star K] {α : Type} [LinearOrder α] [Inhabited α] {N : Nat}
  {hi : Fin N → List α} {cut : Cutoff K}

/-- the local matrix `m` on `sites` connects configurations that satisfy `P` only with such configurations. -/
def Respects (hi : Fin N → List α) (P : (Fin N → α) → Prop) (m : Nat → Nat → K) (sites : List (Fin N)) : Prop :=
  ∀ x x', Valid hi x → Valid hi x' → embed hi m sites x x' ≠ 0 → P x → P x'

/-- configurations of the local spaces that satisfy `P`, as lists. -/
def ValidWith (hi : Fin N → List α) (P : (Fin N → α) → Prop) (σ : List α) : Prop :=
  ∃ x, Valid hi x ∧ P x ∧ σ = List.ofFn x

theorem addBlock_respects {P : (Fin N → α) → Prop} (a b : Mat K) (act : List (Fin N)) (ha : a.n = (dims hi act).prod)
    (hb : b.n = (dims hi act).prod) (h1 : Respects hi P a.f act) (h2 : Respects hi P b.f act) :
    Respects hi P (addBlock a b).f act := by
  intro x x' hx hx' hne hP
  have l1 := lexIdx_lt x hx act
  have l2 := lexIdx_lt x' hx' act
  have e : embed hi (addBlock a b).f act x x' = embed hi a.f act x x' + embed hi b.f act x x' := by
    unfold embed addBlock
    by_cases hc : ∀ s, s ∉ act → x s = x' s
    · simp only [if_pos hc]
      rw [if_pos]
      rw [ha, hb, min_self]
      exact ⟨l1, l2⟩
    · simp only [if_neg hc, add_zero]
  rw [e] at hne
  by_cases h : embed hi a.f act x x' = 0
  · rw [h, zero_add] at hne
    exact h2 x x' hx hx' hne hP
  · exact h1 x x' hx hx' h hP

theorem mergeTerm_respects {P : (Fin N → α) → Prop} (m : Mat K) (act : List (Fin N)) (hm : m.n = (dims hi act).prod)
    (hr : Respects hi P m.f act) (ts ts' : List (Term K α N)) (h : mergeTerm cut hi m act ts = some ts')
    (hd : ∀ t ∈ ts, t.mat.n = (dims hi t.acting).prod) (ht : ∀ t ∈ ts, Respects hi P t.mat.f t.acting) :
    ∀ t ∈ ts', Respects hi P t.mat.f t.acting := by
  induction ts generalizing ts' with
  | nil => simp [mergeTerm] at h
  | cons t ts ih =>
    rw [mergeTerm] at h
    by_cases ha : t.acting = act
    · rw [if_pos ha, Option.some.injEq] at h
      subst h
      intro u hu
      rcases List.mem_cons.1 hu with rfl | hu
      · show Respects hi P (addBlock t.mat m).f t.acting
        refine addBlock_respects _ _ _ (hd t List.mem_cons_self) (by rw [ha]; exact hm) (ht t List.mem_cons_self) (by rw [ha]; exact hr)
      · exact ht u (List.mem_cons_of_mem _ hu)
    · rw [if_neg ha, Option.map_eq_some_iff] at h
      obtain ⟨us, h1, rfl⟩ := h
      intro u hu
      rcases List.mem_cons.1 hu with rfl | hu
      · exact ht _ List.mem_cons_self
      · exact ih us h1 (fun t h => hd t (List.mem_cons_of_mem _ h)) (fun t h => ht t (List.mem_cons_of_mem _ h)) u hu

theorem addOperator_respects {P : (Fin N → α) → Prop} (op op' : LOp K α N) (hsh : Shape hi op) (m : Mat K) (act : List (Fin N))
    (hn : act.Nodup) (hm : m.n = (dims hi act).prod) (hre : Reorderable hi act) (hr : Respects hi P m.f act)
    (ht : ∀ t ∈ op.terms, Respects hi P t.mat.f t.acting) (h : addOperator cut hi op m act = .ok op') :
    ∀ t ∈ op'.terms, Respects hi P t.mat.f t.acting := by
  unfold addOperator at h
  rw [if_neg (not_not.2 hn)] at h
  split at h
  · rw [Except.ok.injEq] at h
    exact h ▸ ht
  · obtain ⟨m', h1, h2, h3⟩ := reorder_ok m act hn hm hre
    rw [h1] at h
    simp only at h
    have hr' : Respects hi P m'.f (act.insertionSort (· ≤ ·)) := by
      intro x x' hx hx' hne
      rw [h3 x x' hx hx'] at hne
      exact hr x x' hx hx' hne
    unfold addSorted at h
    split at h
    · rename_i ts hts
      rw [Except.ok.injEq] at h
      subst h
      exact mergeTerm_respects m' _ h2 hr' op.terms ts hts hsh.dim ht
    · split at h
      · exact absurd h (by simp)
      · rw [Except.ok.injEq] at h
        subst h
        intro t ht'
        rcases List.mem_append.1 ht' with ht' | ht'
        · exact ht t ht'
        · rw [List.mem_singleton.1 ht']
          exact hr'

theorem addAll_respects {P : (Fin N → α) → Prop} (hid : Ideal cut) (ops : List (Mat K × List (Fin N))) (ha : ArgsOK hi ops)
    (hr : ∀ p ∈ ops, Respects hi P p.1.f p.2) (op op' : LOp K α N) (hop : Good hi op)
    (ht : ∀ t ∈ op.terms, Respects hi P t.mat.f t.acting) (h : addAll cut hi op ops = .ok op') :
    ∀ t ∈ op'.terms, Respects hi P t.mat.f t.acting := by
  induction ops generalizing op with
  | nil => simp only [addAll, Except.ok.injEq] at h; exact h ▸ ht
  | cons p ops ih =>
    obtain ⟨m, act⟩ := p
    obtain ⟨a1, a2, a3, a4⟩ := ha (m, act) List.mem_cons_self
    obtain ⟨o1, h1, h2, _, _⟩ := addOperator_ok hid op hop m act a1 a2 a3 a4
    rw [addAll, if_neg a2, h1] at h
    exact ih (fun p hp => ha p (List.mem_cons_of_mem _ hp)) (fun p hp => hr p (List.mem_cons_of_mem _ hp)) o1 h2
      (addOperator_respects op o1 hop.shape m act a1 a3 a4 (hr _ List.mem_cons_self) ht h1) h

/-- what `get_conn` returns comes from a non-zero entry of a stored matrix. -/
theorem conn_respects {P : (Fin N → α) → Prop} (h0 : cut.gt 0 = false) (hs : SortedSpace hi) (op : LOp K α N) (hop : OpOK hi op)
    (hf : Fresh cut hi op) (ht : ∀ t ∈ op.terms, Respects hi P t.mat.f t.acting) (gm : Nat → K) (gx : Nat → Fin N → α)
    (x : Fin N → α) (hx : Valid hi x) (hP : P x) : ∀ q ∈ getConn hi op gm gx x, P q.1 := by
  rw [getConn_eq hs op hop gm gx x hx]
  intro p hp
  simp only [toPairs, List.mem_map] at hp
  obtain ⟨q, hq, rfl⟩ := hp
  unfold rowEntries at hq
  rcases List.mem_append.1 hq with hq | hq
  · split at hq
    · rw [List.mem_singleton] at hq; subst hq; exact hP
    · simp at hq
  · rw [List.mem_flatMap] at hq
    obtain ⟨t, htm, hq⟩ := hq
    have hft := hop.terms t htm
    unfold termConns at hq
    rw [Verif.LocalOp.xsN_eq hs x hx] at hq
    have hfr := hf.terms t htm
    rw [hfr] at hq
    simp only [appendMatrix, List.map_map, List.mem_map, List.mem_filter, List.mem_range, Function.comp, Bool.and_eq_true] at hq
    obtain ⟨j, ⟨hj, _, hgt⟩, rfl⟩ := hq
    have hj' : j < (dims hi t.acting).prod := by rw [← hft.dim]; exact hj
    have hv := conn_valid (hi := hi) x hx t.acting j hj'
    refine ht t htm x _ hx hv ?_ hP
    have hw := (writeSites_eq_iff hs x _ hx hv t.acting hft.nodup j hj').1 rfl
    show embed hi t.mat.f t.acting x (writeSites x t.acting (numberToState (List.map hi t.acting) j)) ≠ 0
    unfold embed
    rw [if_pos hw.1, hw.2]
    intro hz
    rw [hz, h0] at hgt
    exact Bool.false_ne_true hgt

theorem localFlat_rowWise_with {P : (Fin N → α) → Prop} (hid : Ideal cut) (hs : SortedSpace hi) (op : LOp K α N)
    (hb : Built cut hi op) (gm : Nat → K) (gx : Nat → Fin N → α)
    (hc : ∀ x, Valid hi x → P x → ∀ q ∈ getConn hi op gm gx x, P q.1) :
    RowWise (ValidWith hi P) (localFlat hi op gm gx)
      (fun σ => (getConn hi op gm gx (asConf N σ)).map fun p => (List.ofFn p.1, p.2)) := by
  have hr := localFlat_rowWise hid hs op hb gm gx
  have hsub : ∀ σ, ValidWith hi P σ → ValidConf hi σ := fun σ ⟨x, h1, _, h2⟩ => ⟨x, h1, h2⟩
  refine ⟨fun L hL => hr.concat L fun σ hσ => hsub σ (hL σ hσ), fun L hL => hr.split L fun σ hσ => hsub σ (hL σ hσ), ?_⟩
  rintro σ ⟨x, hx, hP, rfl⟩ p hp
  rw [asConf_ofFn] at hp
  obtain ⟨q, hq, rfl⟩ := List.mem_map.1 hp
  exact ⟨q.1, C10_connected_valid hid hs op hb gm gx x hx q hq, hc x hx hP q hq, rfl⟩

/-- **C232**: if every matrix given to the constructor respects the constraint `P`, then all connected configurations of an
    allowed configuration are allowed, and on every space that indexes the allowed configurations `to_sparse` succeeds, its
    entries are those of the operator, and products with vectors are products with this matrix. -/
theorem C232_constrained (hid : Ideal cut) (h0 : cut.gt 0 = false) (hs : SortedSpace hi) (c : K)
    (ops : List (Mat K × List (Fin N))) (ha : ArgsOK hi ops) (P : (Fin N → α) → Prop)
    (hP : ∀ p ∈ ops, Respects hi P p.1.f p.2) :
    ∃ op, mk cut hi c ops = .ok op ∧ ∀ (gm : Nat → K) (gx : Nat → Fin N → α),
      (∀ x, Valid hi x → P x → ∀ q ∈ getConn hi op gm gx x, Valid hi q.1 ∧ P q.1) ∧
      ∀ (h : Disc α), Indexes h (ValidWith hi P) → ∃ m, toSparse h (localFlat hi op gm gx) = .ok m
        ∧ (∀ x x' i j, Valid hi x → P x → Valid hi x' → P x' →
            h.statesToNumbers (List.ofFn x) = .ok i → h.statesToNumbers (List.ofFn x') = .ok j →
            m.dense i j = matrixOfList hi c ops x x')
        ∧ ∀ v i, i < h.nStates → m.dot v i = ∑ j ∈ Finset.range h.nStates, m.dense i j * v j := by
  obtain ⟨op, o1, o2, o3, o4⟩ := mk_ok hid hs c ops ha
  have hb : Built cut hi op := .mk ha o1
  have hfr := (mk_fresh c ops op o1).1
  have hterms : ∀ t ∈ op.terms, Respects hi P t.mat.f t.acting := by
    unfold mk at o1
    split at o1
    · exact addAll_respects hid ops ha hP (zeroOp cut c) op (good_zero hid c) (by simp [zeroOp]) o1
    · exact absurd o1 (by simp)
  refine ⟨op, o1, fun gm gx => ?_⟩
  have hc : ∀ x, Valid hi x → P x → ∀ q ∈ getConn hi op gm gx x, P q.1 :=
    fun x hx hPx => conn_respects h0 hs op o2.ok hfr hterms gm gx x hx hPx
  refine ⟨fun x hx hPx q hq => ⟨C10_connected_valid hid hs op hb gm gx x hx q hq, hc x hx hPx q hq⟩, fun h hidx => ?_⟩
  have hf := localFlat_rowWise_with hid hs op hb gm gx hc
  obtain ⟨m, h1, h2⟩ := C19_to_dense h _ hidx _ _ hf
  obtain ⟨m', h1', h3⟩ := C19_apply h _ hidx _ _ hf
  rw [h1, Except.ok.injEq] at h1'
  subst h1'
  refine ⟨m, h1, fun x x' i j hx hPx hx' hPx' hi' hj => ?_, h3⟩
  rw [h2 _ _ i j ⟨x, hx, hPx, rfl⟩ ⟨x', hx', hPx', rfl⟩ hi' hj, asConf_ofFn, ← o4 x x' hx hx',
    ← C10_get_conn_reachable hid hs op hb gm gx x x' hx hx']
  unfold elementSum melAt
  rw [List.map_map]
  congr 1
  apply List.map_congr_left
  intro p _
  simp only [Function.comp]
  by_cases he : p.1 = x'
  · rw [if_pos he, if_pos (by rw [he])]
  · rw [if_neg he, if_neg fun hc => he (List.ofFn_injective hc)]

/-- the space of a constrained homogeneous space indexes the configurations satisfying the constraint. -/
theorem indexes_constrained (ls : List α) (hn : ls.Nodup) (hne : ls ≠ []) (c : List α → Bool) :
    Indexes (homogConstrained ls N c) (ValidWith (fun _ : Fin N => ls) fun x => c (List.ofFn x) = true) := by
  have h := C02_constrained_indexing ls hn hne N c
  have e : (ValidWith (fun _ : Fin N => ls) fun x => c (List.ofFn x) = true) = fun σ => ValidHomog ls N σ ∧ c σ = true := by
    funext σ
    apply propext
    constructor
    · rintro ⟨x, hx, hc, rfl⟩
      refine ⟨⟨by simp, fun y hy => ?_⟩, hc⟩
      obtain ⟨s, rfl⟩ := (List.mem_ofFn' x y).1 hy
      exact hx s
    · rintro ⟨⟨hl, hm⟩, hc⟩
      subst hl
      exact ⟨fun s => σ[s], fun s => hm _ (List.getElem_mem _), by simpa using hc, by simp⟩
  rw [e]; exact h

end Verif.LocalOp

namespace Verif.Ham
open Verif.Hilbert Verif.Sparse Verif.LocalOp

variable {K : Type} [CommRing K] [DecidableEq K] [Star K] {N : Nat} {cut : Cutoff K}

/-- a bond of the Heisenberg Hamiltonian keeps the total magnetisation. -/
theorem bond_respects (J s : K) (i j : Fin N) (hij : i ≠ j) (total : ℤ) :
    Respects (halfSpins N) (fun x => ∑ t, x t = total) (fun a b => J * (szsz.f a b + s * exchange.f a b)) [i, j] := by
  intro x x' hx hx' hne hP
  rw [heis_term J s i j hij x x' ((valid_halfSpins x).1 hx) ((valid_halfSpins x').1 hx')] at hne
  by_cases h1 : x = x'
  · exact h1 ▸ hP
  · by_cases h2 : x i ≠ x j ∧ x' = fun t => if t = i then x j else if t = j then x i else x t
    · rw [h2.2, exch_eq, sum_exch]
      exact hP
    · rw [if_neg h1, if_neg h2] at hne
      simp at hne

/-- **C232** for `Heisenberg` on `Spin(s=1/2, N, total_sz)`: connected configurations keep the magnetisation; the matrix on the
    constrained space is the block of the Hamiltonian. -/
theorem C232_heisenberg (hid : Ideal cut) (h0 : cut.gt 0 = false) (edges : List ((Fin N × Fin N) × ℤ)) (bip : Bool) (J : K)
    (rule : Option Bool) (he : ∀ e ∈ edges, e.1.1 ≠ e.1.2) (hr : rule = some true → bip = true) (total : ℤ) :
    ∃ op, heisenberg cut N edges bip J rule = .ok op ∧ ∀ (gm : Nat → K) (gx : Nat → Fin N → ℤ),
      (∀ x, IsSpins x → ∀ q ∈ getConn (halfSpins N) op gm gx x, IsSpins q.1 ∧ ∑ t, q.1 t = ∑ t, x t) ∧
      ∃ m, toSparse (homogConstrained [-1, 1] N fun σ => σ.sum == total) (localFlat (halfSpins N) op gm gx) = .ok m
        ∧ (∀ x x' i j, IsSpins x → ∑ t, x t = total → IsSpins x' → ∑ t, x' t = total →
            (homogConstrained [-1, 1] N fun σ => σ.sum == total).statesToNumbers (List.ofFn x) = .ok i →
            (homogConstrained [-1, 1] N fun σ => σ.sum == total).statesToNumbers (List.ofFn x') = .ok j →
            m.dense i j = heisMatrix J (if rule.getD bip then -1 else 1) edges x x') := by
  have main : ∀ (b : Mat K) (s : K), b.n = 4 → b.f = (fun i j => J * (szsz.f i j + s * exchange.f i j)) →
      ∃ op, graphOperator cut (halfSpins N) N edges [] [b] [] = .ok op ∧ ∀ (gm : Nat → K) (gx : Nat → Fin N → ℤ),
      (∀ x, IsSpins x → ∀ q ∈ getConn (halfSpins N) op gm gx x, IsSpins q.1 ∧ ∑ t, q.1 t = ∑ t, x t) ∧
      ∃ m, toSparse (homogConstrained [-1, 1] N fun σ => σ.sum == total) (localFlat (halfSpins N) op gm gx) = .ok m
        ∧ (∀ x x' i j, IsSpins x → ∑ t, x t = total → IsSpins x' → ∑ t, x' t = total →
            (homogConstrained [-1, 1] N fun σ => σ.sum == total).statesToNumbers (List.ofFn x) = .ok i →
            (homogConstrained [-1, 1] N fun σ => σ.sum == total).statesToNumbers (List.ofFn x') = .ok j →
            m.dense i j = heisMatrix J s edges x x') := by
    intro b s hb hbf
    have hterms : graphTerms N N edges [] [b] [] = .ok (edges.map fun e => (b, [e.1.1, e.1.2])) := by
      simp [graphTerms]
    have ha : ArgsOK (halfSpins N) (edges.map fun e => (b, [e.1.1, e.1.2])) := by
      intro p hp
      obtain ⟨e, hee, rfl⟩ := List.mem_map.1 hp
      exact ⟨by simpa using he e hee, by simp, by rw [hb]; rfl, halfSpins_uniform.reorderable _⟩
    have hres : ∀ tot : ℤ, ∀ p ∈ edges.map (fun e => (b, [e.1.1, e.1.2])),
        Respects (halfSpins N) (fun x => ∑ t, x t = tot) p.1.f p.2 := by
      intro tot p hp
      obtain ⟨e, hee, rfl⟩ := List.mem_map.1 hp
      simp only [hbf]
      exact bond_respects J s _ _ (he e hee) tot
    obtain ⟨op, o1, o2⟩ := C232_constrained hid h0 halfSpins_sorted 0 _ ha _ (hres total)
    have hop : graphOperator cut (halfSpins N) N edges [] [b] [] = .ok op := by
      unfold graphOperator
      rw [hterms]
      exact o1
    refine ⟨op, hop, fun gm gx => ⟨fun x hx q hq => ?_, ?_⟩⟩
    · obtain ⟨op', p1, p2⟩ := C232_constrained hid h0 halfSpins_sorted 0 _ ha _ (hres (∑ t, x t))
      rw [o1, Except.ok.injEq] at p1
      subst p1
      obtain ⟨q1, q2⟩ := (p2 gm gx).1 x ((valid_halfSpins x).2 hx) rfl q hq
      exact ⟨(valid_halfSpins _).1 q1, q2⟩
    · have hidx : Indexes (homogConstrained [-1, 1] N fun σ => σ.sum == total)
          (ValidWith (halfSpins N) fun x => ∑ t, x t = total) := by
        have := indexes_constrained (N := N) [-1, (1 : ℤ)] (by decide) (by decide) fun σ => σ.sum == total
        simp only [List.sum_ofFn, beq_iff_eq] at this
        exact this
      obtain ⟨m, m1, m2, _⟩ := (o2 gm gx).2 _ hidx
      refine ⟨m, m1, fun x x' i j hx hPx hx' hPx' hi hj => ?_⟩
      rw [m2 x x' i j ((valid_halfSpins x).2 hx) hPx ((valid_halfSpins x').2 hx') hPx' hi hj]
      unfold matrixOfList heisMatrix
      rw [List.map_map, ← List.sum_map_mul_left, ite_self, zero_add]
      congr 1
      apply List.map_congr_left
      intro e hee
      simp only [Function.comp, hbf]
      rw [heis_term J s _ _ (he e hee) x x' hx hx']
  unfold heisenberg
  cases hrb : rule.getD bip with
  | true =>
    have hb : bip = true := by
      cases rule with
      | none => simpa using hrb
      | some r => simp at hrb; subst hrb; exact hr rfl
    simp only [if_true, hb, Bool.not_true, Bool.false_eq_true, if_false]
    exact main _ (-1) rfl (by funext a b; ring)
  | false =>
    simp only [Bool.false_eq_true, if_false]
    exact main _ 1 rfl (by funext a b; ring)

/-- the square in the sector of magnetisation zero: the hypotheses hold. -/
example (gm : Nat → ℤ) (gx : Nat → Fin 4 → ℤ) : ∃ op m, heisenberg intCut 4 square true 1 none = .ok op ∧
    toSparse (homogConstrained [-1, 1] 4 fun σ => σ.sum == 0) (localFlat (halfSpins 4) op gm gx) = .ok m := by
  obtain ⟨op, h1, h2⟩ := C232_heisenberg intCut_ideal rfl square true 1 none (by decide) (fun _ => rfl) 0
  obtain ⟨m, h3, _⟩ := (h2 gm gx).2
  exact ⟨op, m, h1, h3⟩

/-- a flip of one spin does not respect the magnetisation, the exchange of two does: the condition tells them apart. -/
example : ¬ Respects (K := ℤ) (halfSpins 2) (fun x => ∑ t, x t = 0) (fun i j => if i = j then 0 else 1) [0] := by
  intro h
  have := h ![1, -1] ![-1, -1] (by unfold Valid; decide) (by unfold Valid; decide) (by decide) (by decide)
  exact absurd this (by decide)

example : Respects (K := ℤ) (halfSpins 2) (fun x => ∑ t, x t = 0) (fun a b => 1 * (szsz.f a b + 1 * exchange.f a b)) [0, 1] :=
  bond_respects 1 1 0 1 (by decide) 0

end Verif.Ham
