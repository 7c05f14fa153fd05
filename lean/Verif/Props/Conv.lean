import Verif.Model.Conv
import Verif.Props.DenseGeneral
import Mathlib.Algebra.BigOperators.Group.List.Basic
import Mathlib.Algebra.BigOperators.Group.Finset.Basic
import Mathlib.Algebra.BigOperators.Ring.Finset
import Mathlib.Tactic.Ring
import Mathlib.Tactic.Positivity
import Mathlib.Tactic.Linarith
import Mathlib.Tactic.Common

/-! C195: convolutional layers. -/

set_option linter.unusedVariables false

namespace Verif.Conv
open Verif.Hilbert (Err)
open Verif.Linear (Tensor tuples InShape tuples_mem)

variable {R : Type} [CommRing R]

/-! ## Single inputs and batches -/

/-- one element of a batch. -/
def slice (x : Tensor R) (b : Nat) : Tensor R := ⟨x.shape.drop 1, fun idx => x.at_ (b :: idx)⟩

theorem getLast?_cons_of_ne {α : Type} (a : α) (l : List α) (h : l ≠ []) : (a :: l).getLast? = l.getLast? := by
  cases l with
  | nil => exact absurd rfl h
  | cons b l => simp [List.getLast?_cons]

theorem getLastD_cons_of_ne (a d : Nat) (l : List Nat) (h : l ≠ []) : (a :: l).getLastD d = l.getLastD d := by
  cases l with
  | nil => exact absurd rfl h
  | cons b l => simp

theorem dims_length (ns ks ss rs ls : List Nat) (ps : List (Int × Int)) (h0 : ns.length = ks.length) (h1 : ss.length = ks.length) (h2 : rs.length = ks.length)
    (h3 : ls.length = ks.length) (h4 : ps.length = ks.length) : (dims ns ks ss rs ls ps).length = ks.length := by
  induction ks generalizing ns ss rs ls ps with
  | nil => cases ns <;> simp_all [dims]
  | cons k ks ih =>
    cases ns <;> cases ss <;> cases rs <;> cases ls <;> cases ps <;> simp_all [dims]

theorem dims_k (ns ks ss rs ls : List Nat) (ps : List (Int × Int)) (h0 : ns.length = ks.length) (h1 : ss.length = ks.length) (h2 : rs.length = ks.length)
    (h3 : ls.length = ks.length) (h4 : ps.length = ks.length) : (dims ns ks ss rs ls ps).map Dim.k = ks := by
  induction ks generalizing ns ss rs ls ps with
  | nil => cases ns <;> simp_all [dims]
  | cons k ks ih =>
    cases ns <;> cases ss <;> cases rs <;> cases ls <;> cases ps <;> simp_all [dims]

theorem convGeneral_slice (Ds : List Dim) (g F : Nat) (x kernel : Tensor R) (N : Nat) (T : List Nat) (hT : T ≠ []) (hx : x.shape = N :: T) (b : Nat) (hb : b < N) (idx : List Nat)
    (hi : idx ≠ []) :
    (convGeneral Ds g F x kernel).at_ (b :: idx) = (squeeze0 (convGeneral Ds g F (expand0 (slice x b)) kernel)).at_ idx := by
  have e : (1 :: T).getLastD 0 = (N :: T).getLastD 0 := by
    rw [getLastD_cons_of_ne _ _ _ hT, getLastD_cons_of_ne _ _ _ hT]
  simp only [convGeneral, squeeze0, expand0, slice, hx, List.drop_succ_cons, List.drop_zero, List.headD_cons, e, getLastD_cons_of_ne _ _ _ hi, List.cons_append]

/-- **C195.** a batch is computed element by element: `Conv` of a batch has at `b` what `Conv` gives for the single input number `b`, and raises
    exactly if that raises. -/
theorem C195_batch (cfg : Cfg) (x kernel : Tensor R) (bias : Nat → R) (N : Nat) (T : List Nat) (hx : x.shape = N :: T)
    (hT : T.length = cfg.kernelSize.get.length + 1) (b : Nat) (hb : b < N) :
    (∀ e, conv cfg x kernel bias = .error e ↔ conv cfg (slice x b) kernel bias = .error e)
    ∧ ∀ y, conv cfg x kernel bias = .ok y → ∃ y', conv cfg (slice x b) kernel bias = .ok y' ∧ y.shape = N :: y'.shape
      ∧ ∀ idx, idx ≠ [] → y.at_ (b :: idx) = y'.at_ idx := by
  have hTne : T ≠ [] := by intro h; rw [h] at hT; simp at hT
  have hl : (slice x b).shape.length = cfg.kernelSize.get.length + 1 := by simp [slice, hx, hT]
  have hl' : ¬ x.shape.length = cfg.kernelSize.get.length + 1 := by rw [hx]; simp [hT]
  have hcore : ∀ X : Tensor R, convCore cfg cfg.kernelSize.get x kernel = .ok X → ∃ X', convCore cfg cfg.kernelSize.get (expand0 (slice x b)) kernel = .ok X'
      ∧ X.shape = N :: (squeeze0 X').shape ∧ ∀ idx, idx ≠ [] → X.at_ (b :: idx) = (squeeze0 X').at_ idx := by
    intro X hX
    simp only [convCore, expand0, slice, hx, List.length_cons, List.drop_succ_cons, List.drop_zero, getLast?_cons_of_ne _ _ hTne] at hX ⊢
    cases hlast : T.getLast? with
    | none => simp [hlast] at hX
    | some C =>
      simp only [hlast] at hX ⊢
      split at hX
      · simp at hX
      rename_i h1
      rw [if_neg h1]
      split at hX
      · simp at hX
      rename_i h2
      rw [if_neg h2]
      split at hX
      · simp at hX
      rename_i h3
      rw [if_neg h3]
      split at hX
      · simp at hX
      rename_i h4
      rw [if_neg h4]
      simp only [Except.ok.injEq] at hX
      refine ⟨_, rfl, ?_, fun idx hi => ?_⟩
      · rw [← hX]; simp [convGeneral, squeeze0, hx]
      · rw [← hX]
        have := convGeneral_slice (dims T.dropLast cfg.kernelSize.get (orOnes cfg.strides (T.length + 1 - 2)) (cfg.kernelDilation.getD (cfg.kernelSize.get.map fun _ => 1))
          (cfg.inputDilation.getD (cfg.kernelSize.get.map fun _ => 1)) (convPads cfg.padding T.dropLast cfg.kernelSize.get (orOnes cfg.strides (T.length + 1 - 2))
          (cfg.kernelDilation.getD (cfg.kernelSize.get.map fun _ => 1)))) cfg.groups cfg.features x kernel N T hTne hx b hb idx hi
        simpa only [expand0, slice, hx, List.drop_succ_cons, List.drop_zero] using this
  have herr : ∀ e, convCore cfg cfg.kernelSize.get x kernel = .error e ↔ convCore cfg cfg.kernelSize.get (expand0 (slice x b)) kernel = .error e := by
    intro e
    simp only [convCore, expand0, slice, hx, List.length_cons, List.drop_succ_cons, List.drop_zero, getLast?_cons_of_ne _ _ hTne]
    cases hlast : T.getLast? with
    | none => simp
    | some C => simp only; split <;> [rfl; split <;> [rfl; split <;> [rfl; split <;> simp]]]
  refine ⟨fun e => ?_, fun y hy => ?_⟩
  · simp only [conv]
    rw [if_pos hl, if_neg hl']
    have := herr e
    cases h1 : convCore cfg cfg.kernelSize.get x kernel with
    | error e1 =>
      rw [(herr e1).1 h1]
    | ok X =>
      obtain ⟨X', h2, _⟩ := hcore X h1
      rw [h2]; simp
  · simp only [conv] at hy ⊢
    rw [if_neg hl'] at hy
    rw [if_pos hl]
    cases h1 : convCore cfg cfg.kernelSize.get x kernel with
    | error e1 => simp [h1] at hy
    | ok X =>
      obtain ⟨X', h2, h3, h4⟩ := hcore X h1
      rw [h1] at hy
      simp only [Except.ok.injEq] at hy
      rw [h2]
      refine ⟨_, rfl, ?_, fun idx hi => ?_⟩
      · rw [← hy]; unfold addBias; split <;> exact h3
      · rw [← hy]; unfold addBias
        split
        · simp only [h4 idx hi, getLastD_cons_of_ne _ _ _ hi]
        · exact h4 idx hi

/-! ## What is computed -/

/-- the position of the padded, dilated input under output position `x` and kernel position `k`. -/
def window : List Nat → List Nat → List (Int × Int) → List Nat → List Nat → List Int
  | s :: ss, r :: rs, p :: ps, x :: xs, k :: ks => ((x * s : Int) + k * r - p.1) :: window ss rs ps xs ks
  | _, _, _, _, _ => []

/-- entry `j` of the input is at position `l·j` of the dilated input. -/
def scaled : List Nat → List Nat → List Int
  | l :: ls, j :: js => (l * j : Int) :: scaled ls js
  | _, _ => []

theorem Dim_read_iff (D : Dim) (hl : 0 < D.lhsDil) (x k j : Nat) :
    D.read x k = some j ↔ ((x * D.stride : Int) + k * D.rhsDil - D.lo = D.lhsDil * j ∧ j < D.n) := by
  unfold Dim.read
  push_cast
  set z : Int := (x : Int) * D.stride + k * D.rhsDil - D.lo with hz
  have hl' : (0 : Int) < D.lhsDil := by exact_mod_cast hl
  constructor
  · intro h
    split at h
    · rename_i hc
      obtain ⟨h1, h2, h3⟩ := hc
      simp only [Option.some.injEq] at h
      have hq : 0 ≤ z / D.lhsDil := Int.ediv_nonneg h1 hl'.le
      have hj : (j : Int) = z / D.lhsDil := by rw [← h]; exact Int.toNat_of_nonneg hq
      refine ⟨?_, by omega⟩
      rw [hj]; exact (Int.mul_ediv_cancel' (Int.dvd_of_emod_eq_zero h2)).symm
    · simp at h
  · rintro ⟨h1, h2⟩
    have hd : z / D.lhsDil = j := by rw [h1]; exact Int.mul_ediv_cancel_left _ hl'.ne'
    rw [if_pos ⟨by rw [h1]; positivity, by rw [h1]; exact Int.mul_emod_right _ _, by rw [hd]; exact_mod_cast h2⟩, hd]
    simp

theorem readAll_spec (ns ks ss rs ls : List Nat) (ps : List (Int × Int)) (xs kk : List Nat) (h0 : ns.length = ks.length) (h1 : ss.length = ks.length)
    (h2 : rs.length = ks.length) (h3 : ls.length = ks.length) (h4 : ps.length = ks.length) (h5 : xs.length = ks.length) (h6 : kk.length = ks.length)
    (hl : ∀ l ∈ ls, 0 < l) (js : List Nat) :
    readAll (dims ns ks ss rs ls ps) xs kk = some js ↔ InShape js ns ∧ window ss rs ps xs kk = scaled ls js := by
  induction ks generalizing ns ss rs ls ps xs kk js with
  | nil =>
    simp only [List.length_nil, List.length_eq_zero_iff] at h0 h1 h2 h3 h4 h5 h6
    subst h0 h1 h2 h3 h4 h5 h6
    simp only [dims, readAll, Option.some.injEq, window]
    constructor
    · rintro rfl; exact ⟨.nil, rfl⟩
    · rintro ⟨h, _⟩; cases h; rfl
  | cons k ks ih =>
    cases ns with
    | nil => simp at h0
    | cons n ns =>
    cases ss with
    | nil => simp at h1
    | cons s ss =>
    cases rs with
    | nil => simp at h2
    | cons r rs =>
    cases ls with
    | nil => simp at h3
    | cons l ls =>
    cases ps with
    | nil => simp at h4
    | cons p ps =>
    cases xs with
    | nil => simp at h5
    | cons x xs =>
    cases kk with
    | nil => simp at h6
    | cons c kk =>
      simp only [List.length_cons, Nat.add_right_cancel_iff] at h0 h1 h2 h3 h4 h5 h6
      have hr := Dim_read_iff ⟨n, k, s, r, l, p.1, p.2⟩ (hl l List.mem_cons_self) x c
      have hi := ih ns ss rs ls ps xs kk h0 h1 h2 h3 h4 h5 h6 (fun l h => hl l (List.mem_cons_of_mem _ h))
      simp only at hr
      simp only [dims, readAll, window]
      constructor
      · intro h
        split at h
        · rename_i j js' hj hjs
          simp only [Option.some.injEq] at h
          subst h
          obtain ⟨a1, a2⟩ := (hr j).1 hj
          obtain ⟨b1, b2⟩ := (hi js').1 hjs
          exact ⟨.cons a2 b1, by simp only [scaled, a1, b2]⟩
        · simp at h
      · rintro ⟨ha, hw⟩
        cases ha with
        | cons a2 b1 =>
          rename_i j js'
          simp only [scaled, List.cons.injEq] at hw
          rw [(hr j).2 ⟨hw.1, a2⟩, (hi js').2 ⟨b1, hw.2⟩]

/-- arguments of `Conv` that fit the input: one stride, dilation and pair of paddings for every spatial dimension, positive, and features that can be
    divided into the groups. -/
structure Fits (cfg : Cfg) (S : List Nat) (C : Nat) (ss rs ls : List Nat) (ps : List (Int × Int)) : Prop where
  spatial : S.length = cfg.kernelSize.get.length
  strides : cfg.strides = some ss ∧ ss.length = S.length ∧ ∀ s ∈ ss, 0 < s
  kernelDil : cfg.kernelDilation = some rs ∧ rs.length = S.length ∧ ∀ r ∈ rs, 0 < r
  inputDil : cfg.inputDilation = some ls ∧ ls.length = S.length ∧ ∀ l ∈ ls, 0 < l
  pads : cfg.padding = .pairs ps ∧ ps.length = S.length
  groups : 0 < cfg.groups ∧ cfg.groups ∣ C ∧ cfg.groups ∣ cfg.features

theorem Fits.orOnes {cfg : Cfg} {S : List Nat} {C : Nat} {ss rs ls : List Nat} {ps : List (Int × Int)} (h : Fits cfg S C ss rs ls ps) :
    orOnes cfg.strides S.length = ss := by
  rw [h.strides.1]
  cases ss with
  | nil =>
    have := h.strides.2.1
    simp only [List.length_nil] at this
    simp [Conv.orOnes, ← this]
  | cons s ss => rfl

theorem Fits.conv {cfg : Cfg} {S : List Nat} {C : Nat} {ss rs ls : List Nat} {ps : List (Int × Int)} (h : Fits cfg S C ss rs ls ps) (x kernel : Tensor R) (bias : Nat → R)
    (N : Nat) (hx : x.shape = N :: (S ++ [C])) :
    conv cfg x kernel bias = .ok (addBias cfg.useBias bias (convGeneral (dims S cfg.kernelSize.get ss rs ls ps) cfg.groups cfg.features x kernel)) := by
  have hsp := h.spatial
  have hlen : x.shape.length = cfg.kernelSize.get.length + 2 := by rw [hx]; simp [hsp]
  have hlast : x.shape.getLast? = some C := by rw [hx, getLast?_cons_of_ne _ _ (by simp)]; simp
  have hd : (x.shape.drop 1).dropLast = S := by rw [hx]; simp
  have ho : Conv.orOnes cfg.strides (x.shape.length - 2) = ss := by
    rw [show x.shape.length - 2 = S.length by rw [hlen, hsp]; omega]; exact h.orOnes
  have hc : convCore cfg cfg.kernelSize.get x kernel = .ok (convGeneral (dims S cfg.kernelSize.get ss rs ls ps) cfg.groups cfg.features x kernel) := by
    simp only [convCore, ho, hlast, hd, h.kernelDil.1, h.inputDil.1, h.pads.1, convPads, Option.getD_some]
    rw [if_neg h.groups.1.ne', if_neg (by rw [Nat.mod_eq_zero_of_dvd h.groups.2.1]; simp), if_neg, if_neg (by rw [Nat.mod_eq_zero_of_dvd h.groups.2.2]; simp)]
    rintro (h1 | h1 | h1 | h1 | h1 | h1 | h1 | h1)
    · exact h1 hlen
    · exact h1 (by rw [h.strides.2.1, hsp])
    · exact h1 (by rw [h.kernelDil.2.1, hsp])
    · exact h1 (by rw [h.inputDil.2.1, hsp])
    · exact h1 (by rw [h.pads.2, hsp])
    · exact absurd (h.strides.2.2 0 h1) (by simp)
    · exact absurd (h.kernelDil.2.2 0 h1) (by simp)
    · exact absurd (h.inputDil.2.2 0 h1) (by simp)
  simp only [Conv.conv]
  rw [if_neg (by rw [hlen]; omega), hc]

/-- **C195.** the value: the output at `xs` and feature `o` is the sum over the kernel of its entries times the input below them, taken as zero in
    the padding and between dilated entries, for the input features of the group of `o`. -/
theorem C195_value (cfg : Cfg) (S : List Nat) (C : Nat) (ss rs ls : List Nat) (ps : List (Int × Int)) (h : Fits cfg S C ss rs ls ps) (x kernel : Tensor R) (bias : Nat → R)
    (N : Nat) (hx : x.shape = N :: (S ++ [C])) (b : Nat) (hb : b < N) (ext : List Int → Nat → R)
    (hin : ∀ j c, InShape j S → ext (scaled ls j) c = x.at_ (b :: j ++ [c])) (hout : ∀ z c, (∀ j, InShape j S → z ≠ scaled ls j) → ext z c = 0) :
    ∃ y, conv cfg x kernel bias = .ok y ∧ ∀ xs o, xs.length = S.length → y.at_ (b :: xs ++ [o])
      = ((tuples cfg.kernelSize.get).map fun k => ((List.range (C / cfg.groups)).map fun (c : Nat) =>
          ext (window ss rs ps xs k) (o / (cfg.features / cfg.groups) * (C / cfg.groups) + c) * kernel.at_ (k ++ [c, o])).sum).sum
        + if cfg.useBias then bias o else 0 := by
  refine ⟨_, h.conv x kernel bias N hx, fun xs o hxs => ?_⟩
  have hsp := h.spatial
  set Ds := dims S cfg.kernelSize.get ss rs ls ps with hDs
  have hDl : Ds.length = cfg.kernelSize.get.length := dims_length _ _ _ _ _ _ hsp (by rw [h.strides.2.1, hsp]) (by rw [h.kernelDil.2.1, hsp]) (by rw [h.inputDil.2.1, hsp])
    (by rw [h.pads.2, hsp])
  have hDk : Ds.map Dim.k = cfg.kernelSize.get := dims_k _ _ _ _ _ _ hsp (by rw [h.strides.2.1, hsp]) (by rw [h.kernelDil.2.1, hsp]) (by rw [h.inputDil.2.1, hsp])
    (by rw [h.pads.2, hsp])
  have main : (convGeneral Ds cfg.groups cfg.features x kernel).at_ (b :: xs ++ [o]) = ((tuples cfg.kernelSize.get).map fun k => ((List.range (C / cfg.groups)).map fun (c : Nat) =>
          ext (window ss rs ps xs k) (o / (cfg.features / cfg.groups) * (C / cfg.groups) + c) * kernel.at_ (k ++ [c, o])).sum).sum := by
    have e1 : ((b :: xs ++ [o]).drop 1).take Ds.length = xs := by simp [hDl, ← hsp, ← hxs]
    have e2 : (b :: xs ++ [o]).getLastD 0 = o := by
      rw [List.cons_append, getLastD_cons_of_ne _ _ _ (by simp)]; simp [List.getLastD_eq_getLast?]
    have e3 : x.shape.getLastD 0 = C := by rw [hx, getLastD_cons_of_ne _ _ _ (by simp)]; simp [List.getLastD_eq_getLast?]
    simp only [convGeneral, e1, e2, e3, hDk]
    congr 1
    refine List.map_congr_left fun k hkm => ?_
    have hkl : k.length = cfg.kernelSize.get.length := ((tuples_mem _ _).1 hkm).length
    have hspec := readAll_spec S cfg.kernelSize.get ss rs ls ps xs k hsp (by rw [h.strides.2.1, hsp]) (by rw [h.kernelDil.2.1, hsp]) (by rw [h.inputDil.2.1, hsp])
      (by rw [h.pads.2, hsp]) (by rw [hxs, hsp]) hkl h.inputDil.2.2
    cases hr : readAll Ds xs k with
    | none =>
      have hz : ∀ c, ext (window ss rs ps xs k) c = 0 := fun c => hout _ _ fun j hj hw => by
        have := (hspec j).2 ⟨hj, hw⟩
        rw [← hDs, hr] at this; simp at this
      simp [hz]
    | some js =>
      obtain ⟨a1, a2⟩ := (hspec js).1 hr
      simp only [List.headD_cons, List.cons_append]
      congr 1
      refine List.map_congr_left fun c _ => ?_
      rw [a2, hin js _ a1]; rfl
  unfold addBias
  split
  · rename_i hub
    simp only [main]
    have e2 : (b :: xs ++ [o]).getLastD 0 = o := by
      rw [List.cons_append, getLastD_cons_of_ne _ _ _ (by simp)]; simp [List.getLastD_eq_getLast?]
    rw [e2]
  · rw [main, add_zero]

/-- a position moved by `t` times the strides. -/
def moved : List Nat → List Int → List Int → List Int
  | s :: ss, t :: ts, z :: zs => (z - s * t) :: moved ss ts zs
  | _, _, _ => []

/-- output positions that differ by `t`. -/
def Shifted : List Nat → List Int → List Nat → Prop
  | x :: xs, t :: ts, x' :: xs' => (x' : Int) = x + t ∧ Shifted xs ts xs'
  | [], [], [] => True
  | _, _, _ => False

theorem window_length (n : Nat) (ss rs : List Nat) (ps : List (Int × Int)) (xs k : List Nat) (h1 : ss.length = n) (h2 : rs.length = n) (h3 : ps.length = n)
    (h4 : xs.length = n) (h5 : k.length = n) : (window ss rs ps xs k).length = n := by
  induction n generalizing ss rs ps xs k with
  | zero =>
    simp only [List.length_eq_zero_iff] at h1 h2 h3 h4 h5
    subst h1 h2 h3 h4 h5; rfl
  | succ n ih => cases ss <;> cases rs <;> cases ps <;> cases xs <;> cases k <;> simp_all [window]

theorem window_shifted (ss rs : List Nat) (ps : List (Int × Int)) (xs : List Nat) (ts : List Int) (xs' k : List Nat) (hs : ss.length = xs.length)
    (h : Shifted xs ts xs') : window ss rs ps xs k = moved ss ts (window ss rs ps xs' k) := by
  induction xs generalizing ss rs ps ts xs' k with
  | nil =>
    cases ss with
    | nil => rfl
    | cons => simp at hs
  | cons x xs ih =>
    cases ts with
    | nil => cases xs' <;> exact h.elim
    | cons t ts =>
    cases xs' with
    | nil => exact h.elim
    | cons x' xs' =>
      obtain ⟨h1, h2⟩ := h
      cases ss with
      | nil => simp at hs
      | cons s ss =>
      cases rs with
      | nil => rfl
      | cons r rs =>
      cases ps with
      | nil => rfl
      | cons p ps =>
      cases k with
      | nil => rfl
      | cons c k =>
        simp only [window, moved, List.cons.injEq]
        refine ⟨by rw [h1]; ring, ih ss rs ps ts xs' k (by simpa using hs) h2⟩

/-- **C195.** translations: if one input is another one moved by `t` strides (nothing but zeros moved in or out), so is the output. -/
theorem C195_shift (cfg : Cfg) (S : List Nat) (C : Nat) (ss rs ls : List Nat) (ps : List (Int × Int)) (h : Fits cfg S C ss rs ls ps) (x x' kernel : Tensor R) (bias : Nat → R)
    (N : Nat) (hx : x.shape = N :: (S ++ [C])) (hx' : x'.shape = N :: (S ++ [C])) (b : Nat) (hb : b < N) (ext ext' : List Int → Nat → R)
    (hin : ∀ j c, InShape j S → ext (scaled ls j) c = x.at_ (b :: j ++ [c])) (hout : ∀ z c, (∀ j, InShape j S → z ≠ scaled ls j) → ext z c = 0)
    (hin' : ∀ j c, InShape j S → ext' (scaled ls j) c = x'.at_ (b :: j ++ [c])) (hout' : ∀ z c, (∀ j, InShape j S → z ≠ scaled ls j) → ext' z c = 0)
    (ts : List Int) (hmove : ∀ z c, z.length = S.length → ext' z c = ext (moved ss ts z) c) :
    ∃ y y', conv cfg x kernel bias = .ok y ∧ conv cfg x' kernel bias = .ok y'
      ∧ ∀ xs xs' o, xs.length = S.length → xs'.length = S.length → Shifted xs ts xs' → y'.at_ (b :: xs' ++ [o]) = y.at_ (b :: xs ++ [o]) := by
  obtain ⟨y, hy, hv⟩ := C195_value cfg S C ss rs ls ps h x kernel bias N hx b hb ext hin hout
  obtain ⟨y', hy', hv'⟩ := C195_value cfg S C ss rs ls ps h x' kernel bias N hx' b hb ext' hin' hout'
  refine ⟨y, y', hy, hy', fun xs xs' o hxs hxs' hsh => ?_⟩
  rw [hv xs o hxs, hv' xs' o hxs']
  congr 2
  refine List.map_congr_left fun k hk => ?_
  congr 2
  funext c
  have hkl : k.length = S.length := by rw [((tuples_mem _ _).1 hk).length, h.spatial]
  rw [hmove _ _ (window_length S.length ss rs ps xs' k h.strides.2.1 h.kernelDil.2.1 h.pads.2 hxs' hkl), ← window_shifted ss rs ps xs ts xs' k (by rw [hxs, h.strides.2.1]) hsh]

/-! ## Defaults, paddings and shapes -/

/-- **C195.** strides and dilations that are not given are one. -/
theorem C195_defaults (cfg : Cfg) (x kernel : Tensor R) (bias : Nat → R)
    (hd : x.shape.length = cfg.kernelSize.get.length + 1 ∨ x.shape.length = cfg.kernelSize.get.length + 2) :
    conv cfg x kernel bias = conv { cfg with
      strides := some (cfg.strides.getD (List.replicate cfg.kernelSize.get.length 1))
      kernelDilation := some (cfg.kernelDilation.getD (List.replicate cfg.kernelSize.get.length 1))
      inputDilation := some (cfg.inputDilation.getD (List.replicate cfg.kernelSize.get.length 1)) } x kernel bias := by
  have ho : ∀ d, d = cfg.kernelSize.get.length → orOnes (some (cfg.strides.getD (List.replicate cfg.kernelSize.get.length 1))) d = orOnes cfg.strides d := by
    rintro d rfl
    cases hs : cfg.strides with
    | some l => rfl
    | none =>
      simp only [Option.getD_none, orOnes]
      cases hl : cfg.kernelSize.get.length with
      | zero => rfl
      | succ n => simp [List.replicate_succ]
  have hmap : (cfg.kernelSize.get.map fun _ => 1) = List.replicate cfg.kernelSize.get.length 1 := by simp
  have hcore : ∀ X : Tensor R, X.shape.length = cfg.kernelSize.get.length + 2 → convCore cfg cfg.kernelSize.get X kernel = convCore { cfg with
      strides := some (cfg.strides.getD (List.replicate cfg.kernelSize.get.length 1))
      kernelDilation := some (cfg.kernelDilation.getD (List.replicate cfg.kernelSize.get.length 1))
      inputDilation := some (cfg.inputDilation.getD (List.replicate cfg.kernelSize.get.length 1)) } cfg.kernelSize.get X kernel := by
    intro X hX
    simp only [convCore, ho (X.shape.length - 2) (by omega), hmap, Option.getD_some]
  simp only [conv]
  rcases hd with hd | hd
  · rw [if_pos hd, if_pos hd, hcore (expand0 x) (by simp [expand0, hd])]
  · rw [if_neg (by omega), if_neg (by omega), hcore x hd]

theorem effective_one (n : Nat) : effective n 1 = n := by
  unfold effective
  split <;> omega

theorem same_outLen (n k s r : Nat) (hs : 0 < s) (hk : 0 < k) (hr : 0 < r) :
    Dim.outLen ⟨n, k, s, r, 1, (samePad n (effective k r) s).1, (samePad n (effective k r) s).2⟩ = (n + s - 1) / s := by
  have hK : 0 < effective k r := by unfold effective; rw [if_neg hk.ne']; omega
  set K := effective k r with hKdef
  set out := (n + s - 1) / s with hout
  have h1 : out * s ≤ n + s - 1 := Nat.div_mul_le_self _ _
  have h2 : n + s - 1 < (out + 1) * s := Nat.lt_mul_of_div_lt (Nat.lt_succ_self _) hs
  simp only [Dim.outLen, samePad, effective_one, ← hKdef, ← hout]
  set T : Int := max (((out : Int) - 1) * s + K - n) 0 with hT
  have hroom : (n : Int) + T / 2 + (T - T / 2) - K = n + T - K := by omega
  rw [hroom]
  rcases Nat.eq_zero_or_pos out with h0 | h0
  · have hn : n = 0 := by
      rw [h0] at h2
      omega
    have hTK : T < K := by
      rw [hT, h0, hn]
      push_cast
      rw [max_lt_iff]
      constructor <;> omega
    rw [if_pos (by rw [hn]; push_cast; omega), h0]
  · obtain ⟨m, hm⟩ : ∃ m, out = m + 1 := ⟨out - 1, by omega⟩
    have e1 : ((out : Int) - 1) = m := by rw [hm]; push_cast; omega
    rw [e1] at hT
    rw [hm] at h1 h2
    have h1' : m * s + 1 ≤ n := by
      have : (m + 1) * s = m * s + s := by ring
      omega
    have h2' : n ≤ m * s + s := by
      have : (m + 1 + 1) * s = m * s + s + s := by ring
      omega
    have c1 : ((m * s : Nat) : Int) = (m : Int) * s := by push_cast; rfl
    have hlow : (m : Int) * s ≤ n + T - K := by
      have := le_max_left ((m : Int) * s + K - n) 0
      rw [← hT] at this
      omega
    have hup : (n : Int) + T - K < (m + 1) * s := by
      have e : ((m : Int) + 1) * s = m * s + s := by ring
      rw [e]
      rcases max_choice ((m : Int) * s + K - n) 0 with h | h
      · rw [← hT] at h; omega
      · rw [← hT] at h; omega
    have hq : ((n : Int) + T - K) / s = m := by
      have hs' : (0 : Int) < s := by exact_mod_cast hs
      apply le_antisymm
      · have := (Int.ediv_lt_iff_lt_mul hs').2 hup
        omega
      · exact (Int.le_ediv_iff_mul_le hs').2 hlow
    have hnn : ¬ ((n : Int) + T - K < 0) := by
      have : (0 : Int) ≤ m * s := by positivity
      omega
    rw [if_neg hnn, hq, hm]
    simp

/-- what is needed to speak of the strings for paddings: explicit strides and dilations of the kernel, no dilation of the input. -/
structure FitsStr (cfg : Cfg) (S : List Nat) (C : Nat) (ss rs : List Nat) : Prop where
  spatial : S.length = cfg.kernelSize.get.length
  kernel : ∀ k ∈ cfg.kernelSize.get, 0 < k
  strides : cfg.strides = some ss ∧ ss.length = S.length ∧ ∀ s ∈ ss, 0 < s
  kernelDil : cfg.kernelDilation = some rs ∧ rs.length = S.length ∧ ∀ r ∈ rs, 0 < r
  inputDil : cfg.inputDilation = some (List.replicate S.length 1)
  groups : 0 < cfg.groups ∧ cfg.groups ∣ C ∧ cfg.groups ∣ cfg.features

theorem FitsStr.fits {cfg : Cfg} {S : List Nat} {C : Nat} {ss rs : List Nat} (h : FitsStr cfg S C ss rs) (ps : List (Int × Int)) (hp : ps.length = S.length) :
    Fits { cfg with padding := .pairs ps } S C ss rs (List.replicate S.length 1) ps where
  spatial := h.spatial
  strides := h.strides
  kernelDil := h.kernelDil
  inputDil := ⟨h.inputDil, by simp, by simp⟩
  pads := ⟨rfl, hp⟩
  groups := h.groups

theorem conv_padding (cfg : Cfg) (S : List Nat) (C : Nat) (ss rs : List Nat) (h : FitsStr cfg S C ss rs) (x kernel : Tensor R) (bias : Nat → R) (N : Nat)
    (hx : x.shape = N :: (S ++ [C])) :
    conv cfg x kernel bias = conv { cfg with padding := .pairs (convPads cfg.padding S cfg.kernelSize.get ss rs) } x kernel bias := by
  have hlen : x.shape.length = S.length + 2 := by rw [hx]; simp
  have ho : orOnes cfg.strides (x.shape.length - 2) = ss := by
    rw [show x.shape.length - 2 = S.length by omega]; exact (h.fits (List.replicate S.length (0, 0)) (by simp)).orOnes
  have hd : (x.shape.drop 1).dropLast = S := by rw [hx]; simp
  have hcore : convCore cfg cfg.kernelSize.get x kernel = convCore { cfg with padding := .pairs (convPads cfg.padding S cfg.kernelSize.get ss rs) } cfg.kernelSize.get x kernel := by
    simp only [convCore, ho, hd, h.kernelDil.1, Option.getD_some, convPads]
  simp only [conv]
  rw [if_neg (by rw [hlen, h.spatial]; omega), if_neg (by rw [hlen, h.spatial]; omega), hcore]

theorem same_lists (S ks ss rs : List Nat) (h0 : S.length = ks.length) (h1 : ss.length = S.length) (h2 : rs.length = S.length) (hk : ∀ k ∈ ks, 0 < k) (hs : ∀ s ∈ ss, 0 < s)
    (hr : ∀ r ∈ rs, 0 < r) :
    (convPads .same S ks ss rs).length = S.length
    ∧ (dims S ks ss rs (List.replicate S.length 1) (convPads .same S ks ss rs)).map Dim.outLen = List.zipWith (fun n s => (n + s - 1) / s) S ss
    ∧ ∀ p ∈ convPads .same S ks ss rs, 0 ≤ p.1 ∧ p.1 ≤ p.2 ∧ p.2 ≤ p.1 + 1 := by
  induction S generalizing ks ss rs with
  | nil =>
    cases ks with
    | nil => exact ⟨rfl, rfl, by simp [convPads]⟩
    | cons => simp at h0
  | cons n S ih =>
    cases ks with
    | nil => simp at h0
    | cons k ks =>
    cases ss with
    | nil => simp at h1
    | cons s ss =>
    cases rs with
    | nil => simp at h2
    | cons r rs =>
      simp only [List.length_cons, Nat.add_right_cancel_iff] at h0 h1 h2
      obtain ⟨a, b, c⟩ := ih ks ss rs h0 h1 h2 (fun k h => hk k (List.mem_cons_of_mem _ h)) (fun k h => hs k (List.mem_cons_of_mem _ h)) (fun k h => hr k (List.mem_cons_of_mem _ h))
      have e : convPads .same (n :: S) (k :: ks) (s :: ss) (r :: rs) = samePad n (effective k r) s :: convPads .same S ks ss rs := rfl
      rw [e]
      refine ⟨by simp [a], ?_, fun p hp => ?_⟩
      · rw [List.length_cons, List.replicate_succ, dims, List.map_cons, b, same_outLen n k s r (hs s List.mem_cons_self) (hk k List.mem_cons_self) (hr r List.mem_cons_self)]
        rfl
      · rcases List.mem_cons.1 hp with rfl | hp
        · simp only [samePad]
          set T : Int := max (((((n + s - 1) / s : Nat) : Int) - 1) * s + (effective k r : Int) - n) 0
          have : 0 ≤ T := le_max_right _ _
          refine ⟨?_, ?_, ?_⟩ <;> omega
        · exact c p hp

/-- **C195.** padding 'SAME': as much padding on both sides, or one more after than before, such that the output has the length of the input divided by
    the stride, rounded up. -/
theorem C195_same (cfg : Cfg) (S : List Nat) (C : Nat) (ss rs : List Nat) (h : FitsStr cfg S C ss rs) (hp : cfg.padding = .same) (x kernel : Tensor R) (bias : Nat → R) (N : Nat)
    (hx : x.shape = N :: (S ++ [C])) :
    ∃ ps : List (Int × Int), ps.length = S.length ∧ (∀ p ∈ ps, 0 ≤ p.1 ∧ p.1 ≤ p.2 ∧ p.2 ≤ p.1 + 1)
      ∧ ∃ y, conv cfg x kernel bias = .ok y ∧ conv { cfg with padding := .pairs ps } x kernel bias = .ok y
        ∧ y.shape = N :: (List.zipWith (fun n s => (n + s - 1) / s) S ss ++ [cfg.features]) := by
  obtain ⟨a, b, c⟩ := same_lists S cfg.kernelSize.get ss rs h.spatial h.strides.2.1 h.kernelDil.2.1 h.kernel h.strides.2.2 h.kernelDil.2.2
  refine ⟨convPads .same S cfg.kernelSize.get ss rs, a, c, ?_⟩
  have hc := (h.fits _ a).conv x kernel bias N hx
  have he := conv_padding cfg S C ss rs h x kernel bias N hx
  rw [hp] at he
  refine ⟨_, he.trans hc, hc, ?_⟩
  have : (addBias cfg.useBias bias (convGeneral (dims S cfg.kernelSize.get ss rs (List.replicate S.length 1) (convPads .same S cfg.kernelSize.get ss rs)) cfg.groups cfg.features x kernel)).shape
      = N :: (List.zipWith (fun n s => (n + s - 1) / s) S ss ++ [cfg.features]) := by
    unfold addBias
    split <;> simp [convGeneral, b, hx]
  exact this

/-- length of the output without padding. -/
def validLen (n k r s : Nat) : Nat := if n < (k - 1) * r + 1 then 0 else (n - ((k - 1) * r + 1)) / s + 1

theorem valid_lists (S ks ss rs : List Nat) (h0 : S.length = ks.length) (h1 : ss.length = S.length) (h2 : rs.length = S.length) (hk : ∀ k ∈ ks, 0 < k) :
    (dims S ks ss rs (List.replicate S.length 1) (convPads .valid S ks ss rs)).map Dim.outLen
      = List.zipWith (fun (p : Nat × Nat) (q : Nat × Nat) => validLen p.1 p.2 q.1 q.2) (S.zip ks) (rs.zip ss) := by
  induction S generalizing ks ss rs with
  | nil =>
    cases ks with
    | nil => rfl
    | cons => simp at h0
  | cons n S ih =>
    cases ks with
    | nil => simp at h0
    | cons k ks =>
    cases ss with
    | nil => simp at h1
    | cons s ss =>
    cases rs with
    | nil => simp at h2
    | cons r rs =>
      simp only [List.length_cons, Nat.add_right_cancel_iff] at h0 h1 h2
      have b := ih ks ss rs h0 h1 h2 (fun k h => hk k (List.mem_cons_of_mem _ h))
      have e : convPads .valid (n :: S) (k :: ks) (s :: ss) (r :: rs) = (0, 0) :: convPads .valid S ks ss rs := rfl
      rw [e, List.length_cons, List.replicate_succ, dims, List.map_cons, b]
      simp only [List.zip_cons_cons, List.zipWith_cons_cons, List.cons.injEq, and_true]
      have hk0 : k ≠ 0 := (hk k List.mem_cons_self).ne'
      have hK : effective k r = (k - 1) * r + 1 := by unfold effective; rw [if_neg hk0]
      simp only [Dim.outLen, effective_one, validLen, hK]
      by_cases hlt : n < (k - 1) * r + 1
      · rw [if_pos hlt, if_pos (by push_cast; push_cast at hlt; omega)]
      · rw [if_neg hlt, if_neg (by omega)]
        have : (n : Int) + 0 + 0 - (((k - 1) * r + 1 : Nat) : Int) = ((n - ((k - 1) * r + 1) : Nat) : Int) := by omega
        rw [this, ← Int.natCast_ediv, Int.toNat_natCast]

/-- **C195.** padding 'VALID': no padding; the output has one entry for every position of the dilated kernel inside the input. -/
theorem C195_valid (cfg : Cfg) (S : List Nat) (C : Nat) (ss rs : List Nat) (h : FitsStr cfg S C ss rs) (hp : cfg.padding = .valid) (x kernel : Tensor R) (bias : Nat → R) (N : Nat)
    (hx : x.shape = N :: (S ++ [C])) :
    ∃ y, conv cfg x kernel bias = .ok y ∧ conv { cfg with padding := .pairs (List.replicate S.length (0, 0)) } x kernel bias = .ok y
      ∧ y.shape = N :: (List.zipWith (fun (p : Nat × Nat) (q : Nat × Nat) => validLen p.1 p.2 q.1 q.2) (S.zip cfg.kernelSize.get) (rs.zip ss) ++ [cfg.features]) := by
  have b := valid_lists S cfg.kernelSize.get ss rs h.spatial h.strides.2.1 h.kernelDil.2.1 h.kernel
  have e : convPads .valid S cfg.kernelSize.get ss rs = List.replicate S.length (0, 0) := by simp [convPads, h.spatial]
  rw [e] at b
  have hc := (h.fits (List.replicate S.length (0, 0)) (by simp)).conv x kernel bias N hx
  have he := conv_padding cfg S C ss rs h x kernel bias N hx
  rw [hp, e] at he
  refine ⟨_, he.trans hc, hc, ?_⟩
  have : (addBias cfg.useBias bias (convGeneral (dims S cfg.kernelSize.get ss rs (List.replicate S.length 1) (List.replicate S.length (0, 0))) cfg.groups cfg.features x kernel)).shape
      = N :: (List.zipWith (fun (p : Nat × Nat) (q : Nat × Nat) => validLen p.1 p.2 q.1 q.2) (S.zip cfg.kernelSize.get) (rs.zip ss) ++ [cfg.features]) := by
    unfold addBias
    split <;> simp [convGeneral, b, hx]
  exact this

/-! ## Transposed convolutions -/

/-- **C195.** a transposed convolution is a convolution with stride one of the input dilated by the strides, with the paddings of
    `lax.conv_transpose`; for inputs of up to three spatial dimensions, single or batched. -/
theorem C195_transpose_conv (cfg : Cfg) (x kernel : Tensor R) (bias : Nat → R) (h3 : cfg.kernelSize.get.length ≤ 3)
    (hd : x.shape.length = cfg.kernelSize.get.length + 1 ∨ x.shape.length = cfg.kernelSize.get.length + 2) (ss rs : List Nat)
    (hs : cfg.strides = some ss) (hsl : ss.length = cfg.kernelSize.get.length) (hr : cfg.kernelDilation = some rs) :
    convTranspose cfg x kernel bias = conv { cfg with strides := none, inputDilation := some ss, groups := 1, padding := .pairs (transposePads cfg.padding cfg.kernelSize.get ss rs) } x kernel bias := by
  have ho : orOnes cfg.strides cfg.kernelSize.get.length = ss := by
    rw [hs]
    cases ss with
    | nil => simp only [List.length_nil] at hsl; simp [orOnes, ← hsl]
    | cons => rfl
  have hcore : ∀ X : Tensor R, X.shape.length = cfg.kernelSize.get.length + 2 → transposeCore cfg cfg.kernelSize.get X kernel
      = convCore { cfg with strides := none, inputDilation := some ss, groups := 1, padding := .pairs (transposePads cfg.padding cfg.kernelSize.get ss rs) } cfg.kernelSize.get X kernel := by
    intro X hX
    have ho' : orOnes cfg.strides (X.shape.length - 2) = ss := by rw [hX]; exact ho
    have ho1 : orOnes none (X.shape.length - 2) = cfg.kernelSize.get.map fun _ => 1 := by rw [hX]; simp [orOnes]
    simp only [transposeCore, convCore, ho', ho1, hr, Option.getD_some, convPads]
    cases X.shape.getLast? with
    | none => rfl
    | some C =>
      simp only
      rw [if_neg (by omega : ¬ 5 < X.shape.length), if_neg (show ¬ ((1 : Nat) = 0) by simp), if_neg (show ¬ (C % 1 ≠ 0) by simp [Nat.mod_one])]
      by_cases hc : (X.shape.length ≠ cfg.kernelSize.get.length + 2 ∨ ss.length ≠ cfg.kernelSize.get.length ∨ rs.length ≠ cfg.kernelSize.get.length
          ∨ (transposePads cfg.padding cfg.kernelSize.get ss rs).length ≠ cfg.kernelSize.get.length ∨ 0 ∈ ss ∨ 0 ∈ rs)
      · rw [if_pos hc, if_pos]
        rcases hc with h | h | h | h | h | h
        · exact Or.inl h
        · exact Or.inr (Or.inr (Or.inr (Or.inl h)))
        · exact Or.inr (Or.inr (Or.inl h))
        · exact Or.inr (Or.inr (Or.inr (Or.inr (Or.inl h))))
        · exact Or.inr (Or.inr (Or.inr (Or.inr (Or.inr (Or.inr (Or.inr h))))))
        · exact Or.inr (Or.inr (Or.inr (Or.inr (Or.inr (Or.inr (Or.inl h))))))
      · rw [if_neg hc, if_neg, if_neg (show ¬ (cfg.features % 1 ≠ 0) by simp [Nat.mod_one])]
        push Not at hc
        obtain ⟨a1, a2, a3, a4, a5, a6⟩ := hc
        rintro (h | h | h | h | h | h | h | h)
        · exact h a1
        · simp at h
        · exact h a3
        · exact h a2
        · exact h a4
        · simp at h
        · exact a6 h
        · exact a5 h
  simp only [convTranspose, conv]
  rcases hd with hd | hd
  · rw [if_pos hd, if_pos hd, hcore (expand0 x) (by simp [expand0, hd])]
  · rw [if_neg (by omega), if_neg (by omega), hcore x hd]

theorem transpose_outLen (n k s r : Nat) (hn : 0 < n) (hs : 0 < s) (hk : 0 < k) (same : Bool) :
    Dim.outLen ⟨n, k, 1, r, s, (transposePad (effective k r) s same).1, (transposePad (effective k r) s same).2⟩
      = if same then n * s else n * s + (((k - 1) * r + 1) - s) := by
  have hK : effective k r = (k - 1) * r + 1 := by unfold effective; rw [if_neg hk.ne']
  have hN : effective n s = (n - 1) * s + 1 := by unfold effective; rw [if_neg hn.ne']
  obtain ⟨m, rfl⟩ : ∃ m, n = m + 1 := ⟨n - 1, by omega⟩
  simp only [Nat.add_sub_cancel] at hN
  have e : (m + 1) * s = m * s + s := by ring
  set K := (k - 1) * r + 1 with hKd
  set P := m * s with hP
  unfold Dim.outLen
  simp only [hK, hN, Int.ediv_one, Nat.cast_one, e]
  cases same with
  | true =>
    simp only [transposePad, if_true]
    generalize (if s > K - 1 then (K : Int) - 1 else ((K : Int) + s - 2 + 1) / 2) = a
    rw [if_neg (by push_cast; omega)]
    push_cast; omega
  | false =>
    simp only [transposePad, if_false, Bool.false_eq_true]
    rw [if_neg (by push_cast; omega)]
    push_cast; omega

/-- length of the output of a transposed convolution. -/
def transposeLen (pad : Padding) (n k r s : Nat) : Nat :=
  match pad with
  | .same => n * s
  | _ => n * s + (((k - 1) * r + 1) - s)

theorem transpose_lists (S ks ss rs : List Nat) (h0 : S.length = ks.length) (h1 : ss.length = S.length) (h2 : rs.length = S.length) (hn : ∀ n ∈ S, 0 < n) (hk : ∀ k ∈ ks, 0 < k)
    (hs : ∀ s ∈ ss, 0 < s) (pad : Padding) (hpad : pad = .same ∨ pad = .valid) :
    (transposePads pad ks ss rs).length = S.length
    ∧ (dims S ks (ks.map fun _ => 1) rs ss (transposePads pad ks ss rs)).map Dim.outLen
      = List.zipWith (fun (p : Nat × Nat) (q : Nat × Nat) => transposeLen pad p.1 p.2 q.1 q.2) (S.zip ks) (rs.zip ss) := by
  induction S generalizing ks ss rs with
  | nil =>
    cases ks with
    | nil => rcases hpad with rfl | rfl <;> exact ⟨rfl, rfl⟩
    | cons => simp at h0
  | cons n S ih =>
    cases ks with
    | nil => simp at h0
    | cons k ks =>
    cases ss with
    | nil => simp at h1
    | cons s ss =>
    cases rs with
    | nil => simp at h2
    | cons r rs =>
      simp only [List.length_cons, Nat.add_right_cancel_iff] at h0 h1 h2
      obtain ⟨a, b⟩ := ih ks ss rs h0 h1 h2 (fun k h => hn k (List.mem_cons_of_mem _ h)) (fun k h => hk k (List.mem_cons_of_mem _ h)) (fun k h => hs k (List.mem_cons_of_mem _ h))
      have hl := fun same => transpose_outLen n k s r (hn n List.mem_cons_self) (hs s List.mem_cons_self) (hk k List.mem_cons_self) same
      rcases hpad with rfl | rfl
      · have e : transposePads .same (k :: ks) (s :: ss) (r :: rs) = transposePad (effective k r) s true :: transposePads .same ks ss rs := rfl
        rw [e]
        refine ⟨by simp [a], ?_⟩
        rw [List.map_cons, dims, List.map_cons, b, hl true]; rfl
      · have e : transposePads .valid (k :: ks) (s :: ss) (r :: rs) = transposePad (effective k r) s false :: transposePads .valid ks ss rs := rfl
        rw [e]
        refine ⟨by simp [a], ?_⟩
        rw [List.map_cons, dims, List.map_cons, b, hl false]; rfl

/-- **C195.** the output of a transposed convolution with padding 'SAME' has the length of the input times the stride; with 'VALID' it is longer by what
    the dilated kernel is longer than the stride. -/
theorem C195_transpose_shape (cfg : Cfg) (S : List Nat) (C N : Nat) (x kernel : Tensor R) (bias : Nat → R) (hx : x.shape = N :: (S ++ [C]))
    (h3 : S.length ≤ 3) (h0 : S.length = cfg.kernelSize.get.length) (ss rs : List Nat) (hs : cfg.strides = some ss ∧ ss.length = S.length ∧ ∀ s ∈ ss, 0 < s)
    (hr : cfg.kernelDilation = some rs ∧ rs.length = S.length ∧ ∀ r ∈ rs, 0 < r) (hn : ∀ n ∈ S, 0 < n) (hk : ∀ k ∈ cfg.kernelSize.get, 0 < k) :
    (cfg.padding = .same → ∃ y, convTranspose cfg x kernel bias = .ok y ∧ y.shape = N :: (List.zipWith (fun n s => n * s) S ss ++ [cfg.features]))
    ∧ (cfg.padding = .valid → ∃ y, convTranspose cfg x kernel bias = .ok y
      ∧ y.shape = N :: (List.zipWith (fun (p : Nat × Nat) (q : Nat × Nat) => p.1 * q.2 + (((p.2 - 1) * q.1 + 1) - q.2)) (S.zip cfg.kernelSize.get) (rs.zip ss) ++ [cfg.features])) := by
  have hform : ∀ pad, cfg.padding = pad → pad = .same ∨ pad = .valid → ∃ y, convTranspose cfg x kernel bias = .ok y ∧ y.shape = N ::
      (List.zipWith (fun (p : Nat × Nat) (q : Nat × Nat) => transposeLen pad p.1 p.2 q.1 q.2) (S.zip cfg.kernelSize.get) (rs.zip ss)
        ++ [cfg.features]) := by
    intro pad hp hpad
    obtain ⟨a, b⟩ := transpose_lists S cfg.kernelSize.get ss rs h0 hs.2.1 hr.2.1 hn hk hs.2.2 pad hpad
    have hlen : x.shape.length = cfg.kernelSize.get.length + 2 := by rw [hx]; simp [h0]
    have hc := C195_transpose_conv cfg x kernel bias (by omega) (Or.inr hlen) ss rs hs.1 (by rw [hs.2.1, h0]) hr.1
    have hdef := C195_defaults { cfg with strides := none, inputDilation := some ss, groups := 1, padding := .pairs (transposePads cfg.padding cfg.kernelSize.get ss rs) } x kernel bias (Or.inr hlen)
    simp only [Option.getD_none, hr.1, Option.getD_some] at hdef
    have hfit : Fits ⟨cfg.features, cfg.kernelSize, some (List.replicate cfg.kernelSize.get.length 1), .pairs (transposePads pad cfg.kernelSize.get ss rs), some ss, some rs, 1, cfg.useBias⟩
        S C (List.replicate cfg.kernelSize.get.length 1) rs ss (transposePads pad cfg.kernelSize.get ss rs) :=
      ⟨h0, ⟨rfl, by simp [h0], by simp⟩, ⟨rfl, hr.2.1, hr.2.2⟩, ⟨rfl, hs.2.1, hs.2.2⟩, ⟨rfl, a⟩, ⟨by simp, by simp, by simp⟩⟩
    have hfin := hfit.conv x kernel bias N hx
    rw [hp, hr.1] at hc
    rw [hp] at hdef
    refine ⟨_, (hc.trans hdef).trans hfin, ?_⟩
    have e : (cfg.kernelSize.get.map fun _ => 1) = List.replicate cfg.kernelSize.get.length 1 := by simp
    rw [e] at b
    unfold addBias
    split <;> (simp only [convGeneral, b, hx]; rfl)
  constructor
  · intro hp
    obtain ⟨y, h1, h2⟩ := hform .same hp (Or.inl rfl)
    refine ⟨y, h1, ?_⟩
    rw [h2]
    congr 2
    have : ∀ (S ks rs ss : List Nat), S.length = ks.length → ss.length = S.length → rs.length = S.length →
        List.zipWith (fun (p : Nat × Nat) (q : Nat × Nat) => p.1 * q.2) (S.zip ks) (rs.zip ss) = List.zipWith (fun n s => n * s) S ss := by
      intro S
      induction S with
      | nil => intro ks rs ss _ _ _; simp
      | cons n S ih =>
        intro ks rs ss a b c
        cases ks <;> cases rs <;> cases ss <;> simp_all
    exact this S cfg.kernelSize.get rs ss h0 hs.2.1 hr.2.1
  · intro hp
    exact hform .valid hp (Or.inr rfl)

/-- the paddings of a transposed convolution with 'SAME': as many entries as the dilated kernel and the stride are longer than one.  If no position
    of the kernel is lost between two input entries, the sides differ by at most one entry, the larger first; if the stride is at least as long
    as the dilated kernel, the first output is that of the last kernel entry. -/
def SamePads : List Nat → List Nat → List Nat → List (Int × Int) → Prop
  | [], [], [], [] => True
  | k :: ks, s :: ss, r :: rs, p :: ps =>
    (p.1 + p.2 = (((k - 1) * r + 1 : Nat) : Int) + s - 2
      ∧ (s < (k - 1) * r + 1 → p.2 ≤ p.1 ∧ p.1 ≤ p.2 + 1)
      ∧ ((k - 1) * r + 1 ≤ s → p.1 = (((k - 1) * r : Nat) : Int)))
    ∧ SamePads ks ss rs ps
  | _, _, _, _ => False

theorem samePads_of (ks ss rs : List Nat) (h1 : ss.length = ks.length) (h2 : rs.length = ks.length) (hk : ∀ k ∈ ks, 0 < k) :
    SamePads ks ss rs (transposePads .same ks ss rs)
    ∧ ((∀ (i k r s : Nat), ks[i]? = some k → rs[i]? = some r → ss[i]? = some s → (k - 1) * r + 1 ≤ s)
      → transposePads .same ks ss rs = transposePads .valid ks ss rs) := by
  induction ks generalizing ss rs with
  | nil =>
    obtain rfl := List.eq_nil_of_length_eq_zero h1
    obtain rfl := List.eq_nil_of_length_eq_zero h2
    exact ⟨trivial, fun _ => rfl⟩
  | cons k ks ih =>
    cases ss with
    | nil => simp at h1
    | cons s ss =>
    cases rs with
    | nil => simp at h2
    | cons r rs =>
      obtain ⟨a, b⟩ := ih ss rs (by simpa using h1) (by simpa using h2) (fun k h => hk k (List.mem_cons_of_mem _ h))
      have hK : effective k r = (k - 1) * r + 1 := by
        have := hk k List.mem_cons_self
        unfold effective
        rw [if_neg this.ne']
      have es : transposePads .same (k :: ks) (s :: ss) (r :: rs) = transposePad (effective k r) s true :: transposePads .same ks ss rs := rfl
      have ev : transposePads .valid (k :: ks) (s :: ss) (r :: rs) = transposePad (effective k r) s false :: transposePads .valid ks ss rs := rfl
      rw [es, ev, hK]
      refine ⟨⟨?_, a⟩, fun h => ?_⟩
      · generalize (k - 1) * r = K
        simp only [transposePad, if_true]
        refine ⟨by omega, fun h => ?_, fun h => ?_⟩
        · rw [if_neg (by omega)]
          omega
        · rw [if_pos (by omega)]
          push_cast
          omega
      · have h0 := h 0 k r s rfl rfl rfl
        rw [b fun i k r s hi hj hl => h (i + 1) k r s hi hj hl]
        congr 1
        generalize (k - 1) * r = K at h0 ⊢
        simp only [transposePad, if_true, if_false, Bool.false_eq_true]
        rw [if_pos (by omega), show K + 1 - s = 0 by omega]
        simp

/-- **C195.** the paddings of a transposed convolution: those of 'SAME' are as described (`SamePads`); it is the same as 'VALID' if no dilated
    kernel is longer than the stride. -/
theorem C195_transpose_same (cfg : Cfg) (x kernel : Tensor R) (bias : Nat → R) (ss rs : List Nat) (hs : cfg.strides = some ss)
    (hsl : ss.length = cfg.kernelSize.get.length) (hne : ss ≠ []) (hr : cfg.kernelDilation = some rs) (hrl : rs.length = cfg.kernelSize.get.length)
    (hk : ∀ k ∈ cfg.kernelSize.get, 0 < k) :
    (∃ ps, SamePads cfg.kernelSize.get ss rs ps
      ∧ convTranspose { cfg with padding := .same } x kernel bias = convTranspose { cfg with padding := .pairs ps } x kernel bias)
    ∧ ((∀ (i k r s : Nat), cfg.kernelSize.get[i]? = some k → rs[i]? = some r → ss[i]? = some s → (k - 1) * r + 1 ≤ s)
      → convTranspose { cfg with padding := .same } x kernel bias = convTranspose { cfg with padding := .valid } x kernel bias) := by
  obtain ⟨a, b⟩ := samePads_of cfg.kernelSize.get ss rs hsl hrl hk
  have ho : ∀ d, orOnes (some ss) d = ss := by
    intro d
    cases ss with
    | nil => exact absurd rfl hne
    | cons => rfl
  have hcore : ∀ (X : Tensor R) (pad pad' : Padding), transposePads pad cfg.kernelSize.get ss rs = transposePads pad' cfg.kernelSize.get ss rs →
      transposeCore { cfg with padding := pad } cfg.kernelSize.get X kernel = transposeCore { cfg with padding := pad' } cfg.kernelSize.get X kernel := by
    intro X pad pad' h
    simp only [transposeCore, hs, hr, ho, Option.getD_some, h]
  have hall : ∀ pad pad' : Padding, transposePads pad cfg.kernelSize.get ss rs = transposePads pad' cfg.kernelSize.get ss rs →
      convTranspose { cfg with padding := pad } x kernel bias = convTranspose { cfg with padding := pad' } x kernel bias := by
    intro pad pad' h
    simp only [convTranspose]
    rw [hcore x pad pad' h, hcore (expand0 x) pad pad' h]
  exact ⟨⟨_, a, hall _ _ rfl⟩, fun h => hall _ _ (b h)⟩

/-- **C195.** empty strides, and strides and dilations that are not given, are ones: for `Conv` and for `ConvTranspose`. -/
theorem C195_ones (cfg : Cfg) (x kernel : Tensor R) (bias : Nat → R)
    (hd : x.shape.length = cfg.kernelSize.get.length + 1 ∨ x.shape.length = cfg.kernelSize.get.length + 2) (hst : cfg.strides = none ∨ cfg.strides = some []) :
    conv cfg x kernel bias = conv { cfg with strides := some (List.replicate cfg.kernelSize.get.length 1) } x kernel bias
    ∧ convTranspose cfg x kernel bias = convTranspose { cfg with
        strides := some (List.replicate cfg.kernelSize.get.length 1)
        kernelDilation := some (cfg.kernelDilation.getD (List.replicate cfg.kernelSize.get.length 1)) } x kernel bias := by
  have ho : ∀ d, d = cfg.kernelSize.get.length → orOnes cfg.strides d = List.replicate cfg.kernelSize.get.length 1
      ∧ orOnes (some (List.replicate cfg.kernelSize.get.length 1)) d = List.replicate cfg.kernelSize.get.length 1 := by
    rintro d rfl
    refine ⟨by rcases hst with h | h <;> rw [h] <;> rfl, ?_⟩
    cases cfg.kernelSize.get.length with
    | zero => rfl
    | succ n => simp [List.replicate_succ, orOnes]
  have hmap : (cfg.kernelSize.get.map fun _ => 1) = List.replicate cfg.kernelSize.get.length 1 := by simp
  have hcore : ∀ X : Tensor R, X.shape.length = cfg.kernelSize.get.length + 2 →
      convCore cfg cfg.kernelSize.get X kernel = convCore { cfg with strides := some (List.replicate cfg.kernelSize.get.length 1) } cfg.kernelSize.get X kernel
      ∧ transposeCore cfg cfg.kernelSize.get X kernel = transposeCore { cfg with
        strides := some (List.replicate cfg.kernelSize.get.length 1)
        kernelDilation := some (cfg.kernelDilation.getD (List.replicate cfg.kernelSize.get.length 1)) } cfg.kernelSize.get X kernel := by
    intro X hX
    obtain ⟨h1, h2⟩ := ho (X.shape.length - 2) (by omega)
    simp only [convCore, transposeCore, h1, h2, hmap, Option.getD_some, and_self]
  simp only [conv, convTranspose]
  rcases hd with hd | hd
  · obtain ⟨h1, h2⟩ := hcore (expand0 x) (by simp [expand0, hd])
    rw [if_pos hd, if_pos hd, if_pos hd, if_pos hd, h1, h2]
    exact ⟨rfl, rfl⟩
  · obtain ⟨h1, h2⟩ := hcore x hd
    have hn : ¬ x.shape.length = cfg.kernelSize.get.length + 1 := by omega
    rw [if_neg hn, if_neg hn, if_neg hn, if_neg hn, h1, h2]
    exact ⟨rfl, rfl⟩

/-! ## The adjoint -/

/-- the kernel position seen from the other end. -/
def flip : List Nat → List Nat → List Nat
  | n :: ns, k :: ks => (n - 1 - k) :: flip ns ks
  | _, _ => []

theorem flip_inShape (ns k : List Nat) (h : InShape k ns) : InShape (flip ns k) ns := by
  induction h with
  | nil => exact .nil
  | cons h _ ih => exact .cons (by omega) ih

theorem flip_flip (ns k : List Nat) (h : InShape k ns) : flip ns (flip ns k) = k := by
  induction h with
  | nil => rfl
  | cons h _ ih => simp only [flip, ih, List.cons.injEq, and_true]; omega

theorem tuples_nodup (ns : List Nat) : (tuples ns).Nodup := by
  induction ns with
  | nil => simp [tuples]
  | cons n ns ih =>
    rw [tuples, List.nodup_flatMap]
    refine ⟨fun i _ => ih.map fun a b h => (List.cons.inj h).2, ?_⟩
    refine List.nodup_range.imp fun {i j} hij => ?_
    simp only [Function.onFun, List.disjoint_left, List.mem_map]
    rintro _ ⟨a, _, rfl⟩ ⟨c, _, hc⟩
    exact hij (List.cons.inj hc).1.symm

theorem tuples_sum (ns : List Nat) (f : List Nat → R) : ((tuples ns).map f).sum = ∑ k ∈ (tuples ns).toFinset, f k :=
  (List.sum_toFinset f (tuples_nodup ns)).symm

theorem range_sum (n : Nat) (f : Nat → R) : ((List.range n).map f).sum = ∑ c ∈ Finset.range n, f c := by
  rw [← List.sum_toFinset f List.nodup_range]
  exact Finset.sum_congr (by ext; simp) fun _ _ => rfl

theorem match_sum (ns : List Nat) (o : Option (List Nat)) (ho : ∀ j, o = some j → InShape j ns) (f : List Nat → R) :
    o.elim 0 f = ∑ z ∈ (tuples ns).toFinset, if o = some z then f z else 0 := by
  cases o with
  | none => simp
  | some j =>
    have hj : j ∈ (tuples ns).toFinset := by rw [List.mem_toFinset, tuples_mem]; exact ho j rfl
    simp only [Option.some.injEq]
    rw [Finset.sum_ite_eq, if_pos hj]; rfl

/-- for every dimension the input has as many entries as the windows of the kernel cover, and no window lies between others. -/
def Covered : List Nat → List Nat → List Nat → List Nat → List Nat → Prop
  | n :: S, m :: M, k :: ks, s :: ss, r :: rs => 0 < m ∧ 0 < k ∧ 0 < s ∧ 0 < r ∧ s ≤ (k - 1) * r + 1 ∧ n = (m - 1) * s + ((k - 1) * r + 1) ∧ Covered S M ks ss rs
  | [], [], [], [], [] => True
  | _, _, _, _, _ => False

theorem Covered.facts {S M ks ss rs : List Nat} (h : Covered S M ks ss rs) :
    S.length = ks.length ∧ M.length = ks.length ∧ ss.length = ks.length ∧ rs.length = ks.length ∧ (∀ m ∈ M, 0 < m) ∧ (∀ k ∈ ks, 0 < k) ∧ (∀ s ∈ ss, 0 < s) ∧ (∀ r ∈ rs, 0 < r)
    ∧ List.zipWith (fun (p : Nat × Nat) (q : Nat × Nat) => validLen p.1 p.2 q.1 q.2) (S.zip ks) (rs.zip ss) = M
    ∧ List.zipWith (fun (p : Nat × Nat) (q : Nat × Nat) => p.1 * q.2 + (((p.2 - 1) * q.1 + 1) - q.2)) (M.zip ks) (rs.zip ss) = S := by
  induction S generalizing M ks ss rs with
  | nil =>
    cases M <;> cases ks <;> cases ss <;> cases rs <;> first | exact False.elim h | simp
  | cons n S ih =>
    cases M with
    | nil => exact False.elim h
    | cons m M =>
    cases ks with
    | nil => exact False.elim h
    | cons k ks =>
    cases ss with
    | nil => exact False.elim h
    | cons s ss =>
    cases rs with
    | nil => exact False.elim h
    | cons r rs =>
      obtain ⟨a1, a2, a3, a4, a5, a6, a7⟩ := h
      obtain ⟨b1, b2, b3, b4, b5, b6, b7, b8, b9, b10⟩ := ih a7
      refine ⟨by simp [b1], by simp [b2], by simp [b3], by simp [b4], ?_, ?_, ?_, ?_, ?_, ?_⟩
      · intro z hz; rcases List.mem_cons.1 hz with rfl | hz; exacts [a1, b5 z hz]
      · intro z hz; rcases List.mem_cons.1 hz with rfl | hz; exacts [a2, b6 z hz]
      · intro z hz; rcases List.mem_cons.1 hz with rfl | hz; exacts [a3, b7 z hz]
      · intro z hz; rcases List.mem_cons.1 hz with rfl | hz; exacts [a4, b8 z hz]
      · refine congrArg₂ List.cons ?_ b9
        simp only [validLen]
        rw [if_neg (by omega), a6, Nat.add_sub_cancel, Nat.mul_div_cancel _ a3]
        omega
      · refine congrArg₂ List.cons ?_ b10
        simp only
        obtain ⟨m', rfl⟩ : ∃ m', m = m' + 1 := ⟨m - 1, by omega⟩
        have : (m' + 1) * s = m' * s + s := by ring
        rw [a6, this, Nat.add_sub_cancel]; omega

theorem window_adjoint {S M ks ss rs : List Nat} (h : Covered S M ks ss rs) (xs zs k : List Nat) (hx : InShape xs M) (hz : InShape zs S) (hk : InShape k ks) :
    window ss rs (List.replicate ks.length (0, 0)) xs k = scaled (List.replicate ks.length 1) zs
      ↔ window (List.replicate ks.length 1) rs (transposePads .valid ks ss rs) zs (flip ks k) = scaled ss xs := by
  induction hk generalizing S M ss rs xs zs with
  | nil =>
    cases S <;> cases M <;> cases ss <;> cases rs <;> first | exact False.elim h | skip
    cases hx; cases hz
    simp [window, scaled]
  | cons hlt htl ih =>
    rename_i c n k ks
    cases S with
    | nil => cases M <;> cases ss <;> cases rs <;> exact False.elim h
    | cons a S =>
    cases M with
    | nil => cases ss <;> cases rs <;> exact False.elim h
    | cons m M =>
    cases ss with
    | nil => cases rs <;> exact False.elim h
    | cons s ss =>
    cases rs with
    | nil => exact False.elim h
    | cons r rs =>
      obtain ⟨a1, a2, a3, a4, a5, a6, a7⟩ := h
      cases hx with
      | cons x1 x2 =>
      cases hz with
      | cons z1 z2 =>
        rename_i x xs z zs
        have e : transposePads .valid (n :: ks) (s :: ss) (r :: rs) = transposePad (effective n r) s false :: transposePads .valid ks ss rs := rfl
        have eK : effective n r = (n - 1) * r + 1 := by unfold effective; rw [if_neg (by omega)]
        have elo : (transposePad (effective n r) s false).1 = ((n - 1) * r : Nat) := by simp [transposePad, eK]
        simp only [List.length_cons, List.replicate_succ, e, window, scaled, flip, List.cons.injEq, elo, ih a7 xs zs x2 z2]
        refine and_congr_left fun _ => ?_
        have e1 : (((n - 1 - c : Nat) : Int)) * r = ((n - 1) * r : Nat) - c * r := by
          have e2 : n - 1 = (n - 1 - c) + c := by omega
          have e3 : ((n - 1) * r : Nat) = (n - 1 - c) * r + c * r := by
            conv_lhs => rw [e2]
            ring
          rw [e3]; push_cast; ring
        rw [e1]
        push_cast
        constructor <;> intro hh <;> linarith

theorem sum_rot {α β γ δ ε : Type} (A : Finset α) (B : Finset β) (C : Finset γ) (D : Finset δ) (E : Finset ε) (g : α → β → γ → δ → ε → R) :
    (∑ x ∈ A, ∑ o ∈ B, ∑ k ∈ C, ∑ z ∈ D, ∑ c ∈ E, g x o k z c) = ∑ z ∈ D, ∑ c ∈ E, ∑ k ∈ C, ∑ x ∈ A, ∑ o ∈ B, g x o k z c := by
  have h1 : (∑ x ∈ A, ∑ o ∈ B, ∑ k ∈ C, ∑ z ∈ D, ∑ c ∈ E, g x o k z c) = ∑ p ∈ A ×ˢ B, ∑ k ∈ C, ∑ q ∈ D ×ˢ E, g p.1 p.2 k q.1 q.2 := by
    rw [Finset.sum_product]
    refine Finset.sum_congr rfl fun x _ => Finset.sum_congr rfl fun o _ => Finset.sum_congr rfl fun k _ => ?_
    rw [Finset.sum_product]
  have h2 : (∑ z ∈ D, ∑ c ∈ E, ∑ k ∈ C, ∑ x ∈ A, ∑ o ∈ B, g x o k z c) = ∑ q ∈ D ×ˢ E, ∑ k ∈ C, ∑ p ∈ A ×ˢ B, g p.1 p.2 k q.1 q.2 := by
    rw [Finset.sum_product]
    refine Finset.sum_congr rfl fun x _ => Finset.sum_congr rfl fun o _ => Finset.sum_congr rfl fun k _ => ?_
    rw [Finset.sum_product]
  rw [h1, h2]
  exact (Finset.sum_comm.trans (Finset.sum_congr rfl fun k _ => Finset.sum_comm)).trans Finset.sum_comm

theorem convGeneral_at (S ks ss rs ls : List Nat) (ps : List (Int × Int)) (h0 : S.length = ks.length) (h1 : ss.length = ks.length) (h2 : rs.length = ks.length)
    (h3 : ls.length = ks.length) (h4 : ps.length = ks.length) (hl : ∀ l ∈ ls, 0 < l) (F C N : Nat) (x kernel : Tensor R) (hx : x.shape = N :: (S ++ [C])) (b : Nat)
    (xs : List Nat) (hxs : xs.length = ks.length) (o : Nat) (ho : o < F) :
    (convGeneral (dims S ks ss rs ls ps) 1 F x kernel).at_ (b :: xs ++ [o])
      = ∑ k ∈ (tuples ks).toFinset, ∑ z ∈ (tuples S).toFinset, ∑ c ∈ Finset.range C,
        if window ss rs ps xs k = scaled ls z then x.at_ (b :: z ++ [c]) * kernel.at_ (k ++ [c, o]) else 0 := by
  have e1 : ((b :: (xs ++ [o])).drop 1).take (dims S ks ss rs ls ps).length = xs := by
    rw [dims_length _ _ _ _ _ _ h0 h1 h2 h3 h4, ← hxs]; simp
  have e2 : (b :: (xs ++ [o])).getLastD 0 = o := by
    rw [getLastD_cons_of_ne _ _ _ (by simp)]; simp [List.getLastD_eq_getLast?]
  have e3 : x.shape.getLastD 0 = C := by rw [hx, getLastD_cons_of_ne _ _ _ (by simp)]; simp [List.getLastD_eq_getLast?]
  have e4 : o / F = 0 := Nat.div_eq_of_lt ho
  simp only [convGeneral, List.cons_append, e1, e2, e3, dims_k _ _ _ _ _ _ h0 h1 h2 h3 h4, Nat.div_one, e4, zero_mul, zero_add, List.headD_cons]
  rw [tuples_sum]
  refine Finset.sum_congr rfl fun k hk => ?_
  have hkl : k.length = ks.length := ((tuples_mem _ _).1 (List.mem_toFinset.1 hk)).length
  have hspec := readAll_spec S ks ss rs ls ps xs k h0 h1 h2 h3 h4 hxs hkl hl
  have hm := match_sum S (readAll (dims S ks ss rs ls ps) xs k) (fun j hj => ((hspec j).1 hj).1)
    (fun js => ((List.range C).map fun (c : Nat) => x.at_ (b :: (js ++ [c])) * kernel.at_ (k ++ [c, o])).sum)
  refine Eq.trans ?_ (hm.trans ?_)
  · cases readAll (dims S ks ss rs ls ps) xs k <;> rfl
  · refine Finset.sum_congr rfl fun z hz => ?_
    have hzs : InShape z S := (tuples_mem _ _).1 (List.mem_toFinset.1 hz)
    by_cases hw : window ss rs ps xs k = scaled ls z
    · rw [if_pos ((hspec z).2 ⟨hzs, hw⟩), range_sum]
      simp [hw]
    · rw [if_neg fun h => hw ((hspec z).1 h).2]
      simp [hw]

/-- **C195.** `ConvTranspose` is the adjoint of `Conv` with the same strides and dilations: for padding 'VALID', no bias, and kernels whose windows cover
    the input, the pairing of the convolution of `x` with `y` is that of `x` with the transposed convolution of `y` by the same kernel, flipped and with
    input and output features exchanged. -/
theorem C195_adjoint (cfg : Cfg) (S M : List Nat) (C N : Nat) (ss rs : List Nat) (x y kernel kernel' : Tensor R) (bias bias' : Nat → R) (h3 : S.length ≤ 3)
    (hcov : Covered S M cfg.kernelSize.get ss rs) (hs : cfg.strides = some ss) (hr : cfg.kernelDilation = some rs) (hi : cfg.inputDilation = some (List.replicate S.length 1))
    (hp : cfg.padding = .valid) (hg : cfg.groups = 1) (hub : cfg.useBias = false) (hx : x.shape = N :: (S ++ [C])) (hy : y.shape = N :: (M ++ [cfg.features]))
    (hker : ∀ k c o, InShape k cfg.kernelSize.get → c < C → o < cfg.features → kernel'.at_ (k ++ [o, c]) = kernel.at_ (flip cfg.kernelSize.get k ++ [c, o])) :
    ∃ u v, conv cfg x kernel bias = .ok u ∧ convTranspose { cfg with features := C } y kernel' bias' = .ok v ∧ u.shape = y.shape ∧ v.shape = x.shape
      ∧ ∀ b, b < N → (∑ xs ∈ (tuples M).toFinset, ∑ o ∈ Finset.range cfg.features, u.at_ (b :: xs ++ [o]) * y.at_ (b :: xs ++ [o]))
        = ∑ zs ∈ (tuples S).toFinset, ∑ c ∈ Finset.range C, x.at_ (b :: zs ++ [c]) * v.at_ (b :: zs ++ [c]) := by
  obtain ⟨f1, f2, f3, f4, f5, f6, f7, f8, f9, f10⟩ := hcov.facts
  set ks := cfg.kernelSize.get with hks
  have hfs : FitsStr cfg S C ss rs := ⟨f1, f6, ⟨hs, by rw [f3, f1], f7⟩, ⟨hr, by rw [f4, f1], f8⟩, hi, ⟨by omega, by rw [hg]; simp, by rw [hg]; simp⟩⟩
  obtain ⟨u, hu, hu', hus⟩ := C195_valid cfg S C ss rs hfs hp x kernel bias N hx
  obtain ⟨v, hv, hvs⟩ := (C195_transpose_shape { cfg with features := C } M cfg.features N y kernel' bias' hy (by rw [f2, ← f1]; exact h3) f2 ss rs ⟨hs, by rw [f3, f2], f7⟩
    ⟨hr, by rw [f4, f2], f8⟩ f5 f6).2 hp
  refine ⟨u, v, hu, hv, ?_, ?_, ?_⟩
  · rw [hus, hy]
    exact congrArg (fun l => N :: (l ++ [cfg.features])) f9
  · rw [hvs, hx]
    exact congrArg (fun l => N :: (l ++ [C])) f10
  intro b hb
  -- the values
  have hconv := (hfs.fits (List.replicate S.length (0, 0)) (by simp)).conv x kernel bias N hx
  rw [hu', Except.ok.injEq] at hconv
  have huv : ∀ xs o, xs ∈ (tuples M).toFinset → o < cfg.features → u.at_ (b :: xs ++ [o])
      = ∑ k ∈ (tuples ks).toFinset, ∑ z ∈ (tuples S).toFinset, ∑ c ∈ Finset.range C,
        if window ss rs (List.replicate ks.length (0, 0)) xs k = scaled (List.replicate ks.length 1) z then x.at_ (b :: z ++ [c]) * kernel.at_ (k ++ [c, o]) else 0 := by
    intro xs o hxs ho
    have hxl : xs.length = ks.length := by rw [((tuples_mem _ _).1 (List.mem_toFinset.1 hxs)).length, f2]
    rw [hconv]
    simp only [addBias, hub, Bool.false_eq_true, if_false, hg]
    rw [f1]
    exact convGeneral_at S ks ss rs (List.replicate ks.length 1) (List.replicate ks.length (0, 0)) f1 f3 f4 (by simp) (by simp) (by simp) cfg.features C N x kernel hx b xs hxl o ho
  obtain ⟨a, _⟩ := transpose_lists M ks ss rs f2 (by rw [f3, f2]) (by rw [f4, f2]) f5 f6 f7 .valid (Or.inr rfl)
  have hvv : ∀ zs c, zs ∈ (tuples S).toFinset → c < C → v.at_ (b :: zs ++ [c])
      = ∑ k ∈ (tuples ks).toFinset, ∑ xs ∈ (tuples M).toFinset, ∑ o ∈ Finset.range cfg.features,
        if window (List.replicate ks.length 1) rs (transposePads .valid ks ss rs) zs k = scaled ss xs then y.at_ (b :: xs ++ [o]) * kernel'.at_ (k ++ [o, c]) else 0 := by
    intro zs c hzs hc
    have hzl : zs.length = ks.length := by rw [((tuples_mem _ _).1 (List.mem_toFinset.1 hzs)).length, f1]
    have hlen : y.shape.length = ks.length + 2 := by rw [hy]; simp [f2]
    have hfit : Fits ⟨C, cfg.kernelSize, some (List.replicate ks.length 1), .pairs (transposePads .valid ks ss rs), some ss, some rs, 1, cfg.useBias⟩
        M cfg.features (List.replicate ks.length 1) rs ss (transposePads .valid ks ss rs) :=
      ⟨f2, ⟨rfl, by simp [f2], by simp⟩, ⟨rfl, by rw [f4, f2], f8⟩, ⟨rfl, by rw [f3, f2], f7⟩, ⟨rfl, a⟩, ⟨by simp, by simp, by simp⟩⟩
    have hc1 := C195_transpose_conv { cfg with features := C } y kernel' bias' (by rw [← hks, ← f1]; exact h3) (Or.inr hlen) ss rs hs f3 hr
    have hdef := C195_defaults { cfg with features := C, strides := none, inputDilation := some ss, groups := 1, padding := .pairs (transposePads cfg.padding cfg.kernelSize.get ss rs) } y kernel' bias'
      (Or.inr hlen)
    simp only [Option.getD_none, hr, Option.getD_some, ← hks, hp] at hdef hc1
    have hfin := hfit.conv y kernel' bias' N hy
    have := (hc1.trans hdef).trans hfin
    simp only [hr, hp] at hv
    rw [← hks] at this
    have hv2 : v = _ := Except.ok.inj (hv.symm.trans this)
    rw [hv2]
    simp only [addBias, hub, Bool.false_eq_true, if_false]
    exact convGeneral_at M ks (List.replicate ks.length 1) rs ss (transposePads .valid ks ss rs) f2 (by simp) f4 f3 (by rw [a, f2]) f7 C cfg.features N y kernel' hy b zs hzl c hc
  have hL : (∑ xs ∈ (tuples M).toFinset, ∑ o ∈ Finset.range cfg.features, u.at_ (b :: xs ++ [o]) * y.at_ (b :: xs ++ [o]))
      = ∑ xs ∈ (tuples M).toFinset, ∑ o ∈ Finset.range cfg.features, ∑ k ∈ (tuples ks).toFinset, ∑ z ∈ (tuples S).toFinset, ∑ c ∈ Finset.range C,
        if window ss rs (List.replicate ks.length (0, 0)) xs k = scaled (List.replicate ks.length 1) z then x.at_ (b :: z ++ [c]) * kernel.at_ (k ++ [c, o]) * y.at_ (b :: xs ++ [o]) else 0 := by
    refine Finset.sum_congr rfl fun xs hxs => Finset.sum_congr rfl fun o ho => ?_
    rw [huv xs o hxs (Finset.mem_range.1 ho), Finset.sum_mul]
    refine Finset.sum_congr rfl fun k _ => ?_
    rw [Finset.sum_mul]
    refine Finset.sum_congr rfl fun z _ => ?_
    rw [Finset.sum_mul]
    refine Finset.sum_congr rfl fun c _ => ?_
    rw [ite_mul, zero_mul]
  rw [hL, sum_rot]
  refine Finset.sum_congr rfl fun z hz => Finset.sum_congr rfl fun c hc => ?_
  rw [hvv z c hz (Finset.mem_range.1 hc), Finset.mul_sum]
  refine Finset.sum_bij' (fun k _ => flip ks k) (fun k _ => flip ks k) ?_ ?_ ?_ ?_ ?_
  · intro k hk; rw [List.mem_toFinset, tuples_mem] at hk ⊢; exact flip_inShape _ _ hk
  · intro k hk; rw [List.mem_toFinset, tuples_mem] at hk ⊢; exact flip_inShape _ _ hk
  · intro k hk; rw [List.mem_toFinset, tuples_mem] at hk; exact flip_flip _ _ hk
  · intro k hk; rw [List.mem_toFinset, tuples_mem] at hk; exact flip_flip _ _ hk
  · intro k hk
    rw [List.mem_toFinset, tuples_mem] at hk hz
    rw [Finset.mul_sum]
    refine Finset.sum_congr rfl fun xs hxs => ?_
    rw [List.mem_toFinset, tuples_mem] at hxs
    rw [Finset.mul_sum]
    refine Finset.sum_congr rfl fun o ho => ?_
    have hw := window_adjoint hcov xs z k hxs hz hk
    rw [hker (flip ks k) c o (flip_inShape _ _ hk) (Finset.mem_range.1 hc) (Finset.mem_range.1 ho), flip_flip _ _ hk]
    by_cases h : window ss rs (List.replicate ks.length (0, 0)) xs k = scaled (List.replicate ks.length 1) z
    · rw [if_pos h, if_pos (hw.1 h)]; ring
    · rw [if_neg h, if_neg (fun h' => h (hw.2 h'))]; ring

/-! ## The hypotheses can be met -/

/-- a layer on a chain (a test value). -/
def testCfg (pad : Padding) : Cfg := ⟨3, .int 3, some [2], pad, some [1], some [1], 1, false⟩

example (x kernel : Tensor Int) (hx : x.shape = [4, 5, 2]) := C195_batch (testCfg .valid) x kernel (fun _ => 0) 4 [5, 2] hx rfl 3 (by decide)
theorem testFits : Fits (testCfg (.pairs [(1, 1)])) [5] 2 [2] [1] [1] [(1, 1)] :=
  ⟨rfl, ⟨rfl, rfl, by simp⟩, ⟨rfl, rfl, by simp⟩, ⟨rfl, rfl, by simp⟩, ⟨rfl, rfl⟩, ⟨by decide, ⟨2, rfl⟩, ⟨3, rfl⟩⟩⟩
example (x kernel : Tensor Int) (hx : x.shape = [4, 5, 2]) (ext : List Int → Nat → Int)
    (hin : ∀ j c, InShape j [5] → ext (scaled [1] j) c = x.at_ (3 :: j ++ [c])) (hout : ∀ z c, (∀ j, InShape j [5] → z ≠ scaled [1] j) → ext z c = 0) :=
  C195_value (testCfg (.pairs [(1, 1)])) [5] 2 [2] [1] [1] [(1, 1)] testFits x kernel (fun _ => 0) 4 hx 3 (by decide) ext hin hout
/-- the zero-extended input exists. -/
example (x : List Nat → Int) : ∃ ext : List Int → Nat → Int, (∀ j c, InShape j [5] → ext (scaled [1] j) c = x (3 :: j ++ [c]))
    ∧ ∀ z c, (∀ j, InShape j [5] → z ≠ scaled [1] j) → ext z c = 0 := by
  classical
  refine ⟨fun z c => if h : ∃ j, InShape j [5] ∧ z = scaled [1] j then x (3 :: h.choose ++ [c]) else 0, fun j c hj => ?_, fun z c hz => ?_⟩
  · have h : ∃ i, InShape i [5] ∧ scaled [1] j = scaled [1] i := ⟨j, hj, rfl⟩
    dsimp only
    rw [dif_pos h]
    have h2 := h.choose_spec
    have : h.choose = j := by
      generalize h.choose = i at h2
      obtain ⟨a, b⟩ := h2
      cases a with
      | cons _ a => cases a; cases hj with
        | cons _ d => cases d; simp [scaled] at b; rw [b]
    rw [this]
  · dsimp only
    rw [dif_neg]
    rintro ⟨j, hj, e⟩
    exact hz j hj e
/-- an entry moved by one stride (`C195_shift`): such inputs exist. -/
example : ∃ ext ext' : List Int → Nat → Int, (∀ z c, z.length = 1 → ext' z c = ext (moved [2] [1] z) c) ∧ ext [1] 0 = 1 ∧ ext' [3] 0 = 1
    ∧ ∀ z c, (∀ j, InShape j [5] → z ≠ scaled [1] j) → ext z c = 0 ∧ ext' z c = 0 := by
  refine ⟨fun z _ => if z = [1] then 1 else 0, fun z _ => if z = [3] then 1 else 0, fun z c hz => ?_, by decide, by decide, fun z c hz => ⟨?_, ?_⟩⟩
  · match z, hz with
    | [w], _ =>
      have : w = 3 ↔ w - 2 = 1 := by omega
      simp [moved, this]
  · dsimp only
    rw [if_neg]
    rintro rfl
    exact hz [1] (.cons (by decide) .nil) rfl
  · dsimp only
    rw [if_neg]
    rintro rfl
    exact hz [3] (.cons (by decide) .nil) rfl
example (x x' kernel : Tensor Int) (hx : x.shape = [4, 5, 2]) (hx' : x'.shape = [4, 5, 2]) := C195_shift (testCfg (.pairs [(1, 1)])) [5] 2 [2] [1] [1] [(1, 1)] testFits x x' kernel
  (fun _ => 0) 4 hx hx' 3 (by decide)
theorem testStr (pad : Padding) : FitsStr (testCfg pad) [5] 2 [2] [1] :=
  ⟨rfl, by simp [testCfg, KernelSize.get], ⟨rfl, rfl, by simp⟩, ⟨rfl, rfl, by simp⟩, rfl, ⟨Nat.one_pos, ⟨2, rfl⟩, ⟨3, rfl⟩⟩⟩
example (x kernel : Tensor Int) (hx : x.shape = [4, 5, 2]) := C195_same (testCfg .same) [5] 2 [2] [1] (testStr _) rfl x kernel (fun _ => 0) 4 hx
example (x kernel : Tensor Int) (hx : x.shape = [4, 5, 2]) := C195_valid (testCfg .valid) [5] 2 [2] [1] (testStr _) rfl x kernel (fun _ => 0) 4 hx
example (x kernel : Tensor Int) (hx : x.shape = [5, 2]) := C195_defaults (testCfg .same) x kernel (fun _ => 0) (Or.inl (by rw [hx]; rfl))
example (x kernel : Tensor Int) (hx : x.shape = [5, 2]) := C195_transpose_conv (testCfg .same) x kernel (fun _ => 0) (by decide) (Or.inl (by rw [hx]; rfl)) [2] [1] rfl rfl rfl
example (x kernel : Tensor Int) (hx : x.shape = [4, 5, 2]) := C195_transpose_shape (testCfg .same) [5] 2 4 x kernel (fun _ => 0) hx (by decide) rfl [2] [1] ⟨rfl, rfl, by simp⟩
  ⟨rfl, rfl, by simp⟩ (by simp) (by simp [testCfg, KernelSize.get])
example (x kernel : Tensor Int) := C195_transpose_same (testCfg .same) x kernel (fun _ => 0) [2] [1] rfl rfl (by simp) rfl rfl (by simp [testCfg, KernelSize.get])
example (x kernel : Tensor Int) (hx : x.shape = [5, 2]) := C195_ones { testCfg .same with strides := some [] } x kernel (fun _ => 0) (Or.inl (by rw [hx]; rfl)) (Or.inr rfl)
example (x y kernel : Tensor Int) (hx : x.shape = [4, 5, 2]) (hy : y.shape = [4, 2, 3]) :=
  C195_adjoint (testCfg .valid) [5] [2] 2 4 [2] [1] x y kernel ⟨[3, 3, 2], fun i => kernel.at_ (flip [3] (i.take 1) ++ [i.getD 2 0, i.getD 1 0])⟩ (fun _ => 0) (fun _ => 0) (by decide)
    (by simp [Covered, testCfg, KernelSize.get]) rfl rfl rfl rfl rfl rfl hx hy (by
      intro k c o hk _ _
      cases hk with
      | cons _ h => cases h; rfl)

end Verif.Conv
