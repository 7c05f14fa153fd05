import Verif.Model.BoseBuf
import Verif.Props.Bose
import Mathlib.Tactic.Common

/-! C196, C197: the buffers of `BoseHubbard`. -/

set_option linter.unusedVariables false

namespace Verif.BoseBuf
open Verif.Ham (Bose Roots hopTo)

variable {K : Type} {N : Nat}

/-! ## Writing -/

theorem set_append_cons {α : Type} (pre : List α) (a b : α) (rest : List α) : (pre ++ a :: rest).set pre.length b = pre ++ b :: rest := by
  rw [List.set_append]; simp

theorem writeAll_spec (es : List ((Fin N → Int) × K)) (b : Buf K N) (pm : List K) (rm : List K) (px rx : List (Fin N → Int)) (i : Nat) (hm : b.mels = pm ++ rm)
    (hx : b.xprime = px ++ rx) (hpm : pm.length = i) (hpx : px.length = i) (hlm : es.length ≤ rm.length) (hlx : es.length ≤ rx.length) :
    b.writeAll i es = some ⟨pm ++ es.map Prod.snd ++ rm.drop es.length, px ++ es.map Prod.fst ++ rx.drop es.length, b.dtype⟩ := by
  induction es generalizing b pm rm px rx i with
  | nil => simp only [Buf.writeAll, List.map_nil, List.append_nil, List.length_nil, List.drop_zero]; rw [← hm, ← hx]
  | cons e es ih =>
    cases rm with
    | nil => simp at hlm
    | cons m rm =>
    cases rx with
    | nil => simp at hlx
    | cons x rx =>
      have hw : b.write i e.1 e.2 = some ⟨(pm ++ [e.2]) ++ rm, (px ++ [e.1]) ++ rx, b.dtype⟩ := by
        unfold Buf.write
        rw [if_pos (by rw [hm, hx]; simp [hpm, hpx]), hm, hx]
        subst hpm
        rw [set_append_cons, ← hpx, set_append_cons]
        simp
      simp only [Buf.writeAll, hw]
      rw [ih ⟨(pm ++ [e.2]) ++ rm, (px ++ [e.1]) ++ rx, b.dtype⟩ (pm ++ [e.2]) rm (px ++ [e.1]) rx (i + 1) rfl rfl (by simp [hpm]) (by simp [hpx])
        (by simpa using hlm) (by simpa using hlx)]
      simp

section
variable [CommRing K]

theorem rowStored_snd (R : Roots K) (op : Bose K N) (d : Dtype) (x : Fin N → Nat) : (rowStored R op d (op.diag R x) x).map Prod.snd = (op.row R x).map Prod.snd := by
  unfold rowStored Bose.row
  simp only [List.map_cons, List.map_flatMap]
  congr 2
  funext e
  unfold edgeStored Bose.edgeEntries
  split_ifs <;> rfl

theorem rowStored_snd_conn (R : Roots K) (op : Bose K N) (d : Dtype) (x : Fin N → Nat) :
    (rowStored R op d ((op.getConn R x).map Prod.snd |>.headD 0) x).map Prod.snd = (op.getConn R x).map Prod.snd := by
  unfold rowStored Bose.getConn
  simp only [List.map_cons, List.map_flatMap, List.headD_cons]
  congr 2
  funext e
  unfold edgeStored Bose.edgeEntries
  split_ifs <;> rfl

theorem rowStored_length (R : Roots K) (op : Bose K N) (d : Dtype) (diag : K) (x : Fin N → Nat) : (rowStored R op d diag x).length = (op.row R x).length := by
  have h1 := congrArg List.length (rowStored_snd R op d x)
  simp only [List.length_map] at h1
  rw [← h1]
  rfl

theorem row_length_le (R : Roots K) (op : Bose K N) (x : Fin N → Nat) : (op.row R x).length ≤ op.maxConn := by
  have := (Verif.Ham.C22_max_conn_size R op x).1
  rwa [Verif.Ham.C22_get_conn_is_kernel] at this

/-- the dtype holds the integers from 0 to `B`. -/
def Holds (d : Dtype) (B : Nat) : Prop := d.lo ≤ 0 ∧ (B : Int) ≤ d.hi

theorem cast_of_holds {d : Dtype} {B : Nat} (h : Holds d B) (a : Int) (h0 : 0 ≤ a) (h1 : a ≤ B) : d.cast a = a := by
  unfold Dtype.cast
  rw [if_pos ⟨le_trans h.1 h0, le_trans h1 h.2⟩]

/-- a configuration as integers. -/
def toInt (x : Fin N → Nat) : Fin N → Int := fun s => x s

theorem stored_of_holds {d : Dtype} {B : Nat} (h : Holds d B) (x : Fin N → Nat) (hx : ∀ s, x s < B) : stored d x = toInt x := by
  funext s
  exact cast_of_holds h _ (by omega) (by have := hx s; omega)

theorem storedHop_of_holds {d : Dtype} {B : Nat} (h : Holds d B) (x : Fin N → Nat) (hx : ∀ s, x s < B) (i j : Fin N) (hi : 0 < x i) :
    storedHop d x i j = toInt (hopTo x i j) := by
  unfold storedHop hopTo
  simp only [stored_of_holds h x hx]
  have e1 : d.cast (toInt x i - 1) = ((x i - 1 : Nat) : Int) := by
    rw [cast_of_holds h _ (by simp only [toInt]; omega) (by have := hx i; simp only [toInt]; omega)]
    simp only [toInt]; omega
  rw [e1]
  have e2 : Function.update (toInt x) i ((x i - 1 : Nat) : Int) = toInt (Function.update x i (x i - 1)) := by
    funext s
    by_cases hs : s = i
    · subst hs; simp [toInt]
    · simp [toInt, hs]
  rw [e2]
  set y := Function.update x i (x i - 1) with hy
  have hyj : y j < B := by
    rw [hy]
    by_cases hs : j = i
    · subst hs; simp; have := hx j; omega
    · simp [hs, hx j]
  have e3 : d.cast (toInt y j + 1) = ((y j + 1 : Nat) : Int) := by
    rw [cast_of_holds h _ (by simp only [toInt]; omega) (by simp only [toInt]; omega)]
    simp only [toInt]; push_cast; rfl
  rw [e3]
  funext s
  by_cases hs : s = j
  · subst hs; simp [toInt]
  · simp [toInt, hs]

theorem edges_fst {d : Dtype} {B : Nat} (h : Holds d B) (R : Roots K) (op : Bose K N) (x : Fin N → Nat) (hx : ∀ s, x s < B) :
    (op.edges.flatMap (edgeStored R op d x)).map Prod.fst = (op.edges.flatMap (op.edgeEntries R x)).map fun p => toInt p.1 := by
  simp only [List.map_flatMap]
  congr 1
  funext e
  unfold edgeStored Bose.edgeEntries
  simp only [List.map_append]
  congr 1
  · split_ifs with hc
    · simp only [List.map_cons, List.map_nil, storedHop_of_holds h x hx _ _ hc.1]
    · rfl
  · split_ifs with hc
    · simp only [List.map_cons, List.map_nil, storedHop_of_holds h x hx _ _ hc.1]
    · rfl

theorem rowStored_fst {d : Dtype} {B : Nat} (h : Holds d B) (R : Roots K) (op : Bose K N) (diag : K) (x : Fin N → Nat) (hx : ∀ s, x s < B) :
    (rowStored R op d diag x).map Prod.fst = (op.row R x).map fun p => toInt p.1 := by
  unfold rowStored Bose.row
  simp only [List.map_cons, edges_fst h R op x hx, stored_of_holds h x hx]

/-! ## Calls -/

/-- the buffers of an object whenever a method is called: two arrays of one length, which is at least `max_conn_size`. -/
def Ready (op : Bose K N) (b : Buf K N) : Prop := b.mels.length = b.xprime.length ∧ op.maxConn ≤ b.mels.length

theorem getConn_spec (R : Roots K) (op : Bose K N) (b : Buf K N) (h : Ready op b) (x : Fin N → Nat) :
    ∃ b', Ready op b' ∧ b'.dtype = b.dtype ∧ b'.mels.length = b.mels.length
      ∧ getConn R op b x = some (b', (rowStored R op b.dtype ((op.getConn R x).map Prod.snd |>.headD 0) x).map Prod.fst, (op.getConn R x).map Prod.snd, b.dtype) := by
  set entries := rowStored R op b.dtype ((op.getConn R x).map Prod.snd |>.headD 0) x with he
  have hl : entries.length ≤ b.mels.length := by
    rw [he, rowStored_length]; exact le_trans (row_length_le R op x) h.2
  have hw := writeAll_spec entries b [] b.mels [] b.xprime 0 rfl rfl rfl rfl hl (by rw [← h.1]; exact hl)
  simp only [List.nil_append] at hw
  refine ⟨⟨entries.map Prod.snd ++ b.mels.drop entries.length, entries.map Prod.fst ++ b.xprime.drop entries.length, b.dtype⟩, ?_, rfl, ?_, ?_⟩
  rotate_left 2
  · unfold getConn
    simp only [← he, hw]
    congr 1
    refine Prod.ext rfl (Prod.ext ?_ (Prod.ext ?_ rfl))
    · simp only [← List.length_map (f := Prod.fst)]
      rw [List.take_left']
      simp
    · simp only
      rw [← rowStored_snd_conn R op b.dtype x, ← he]
      rw [List.take_left']
      simp
  · have := h.1
    have := h.2
    refine ⟨?_, ?_⟩ <;> simp <;> omega
  · simp; omega

/-- the matrix elements that a sample takes in the buffer. -/
def pieceM (R : Roots K) (op : Bose K N) (pad : Bool) (x : Fin N → Nat) : List K :=
  (op.row R x).map Prod.snd ++ if pad then List.replicate (op.maxConn - (op.row R x).length) 0 else []

/-- the configurations that a sample takes in the buffer. -/
def pieceX (R : Roots K) (op : Bose K N) (pad : Bool) (d : Dtype) (x : Fin N → Nat) : List (Fin N → Int) :=
  (rowStored R op d (op.diag R x) x).map Prod.fst ++ if pad then List.replicate (op.maxConn - (op.row R x).length) (fun _ => d.cast 0) else []

/-- running totals. -/
def ends : Nat → List Nat → List Nat
  | _, [] => []
  | a, l :: ls => (a + l) :: ends (a + l) ls

theorem ends_last (a : Nat) (ls : List Nat) : (ends a ls).getLastD a = a + ls.sum := by
  induction ls generalizing a with
  | nil => simp [ends]
  | cons l ls ih =>
    simp only [ends, List.getLastD_cons, ih, List.sum_cons]
    omega

theorem pieceM_length (R : Roots K) (op : Bose K N) (pad : Bool) (x : Fin N → Nat) :
    (pieceM R op pad x).length = if pad then op.maxConn else (op.row R x).length := by
  have := row_length_le R op x
  unfold pieceM
  cases pad <;> simp; omega

theorem pieceX_length (R : Roots K) (op : Bose K N) (pad : Bool) (d : Dtype) (x : Fin N → Nat) :
    (pieceX R op pad d x).length = (pieceM R op pad x).length := by
  unfold pieceM pieceX
  cases pad <;> simp [rowStored_length]

theorem pieceM_le (R : Roots K) (op : Bose K N) (pad : Bool) (x : Fin N → Nat) : (pieceM R op pad x).length ≤ op.maxConn := by
  rw [pieceM_length]
  have := row_length_le R op x
  cases pad <;> simp; omega

theorem loop_spec (R : Roots K) (op : Bose K N) (pad : Bool) (xs : List (Fin N → Nat)) (b : Buf K N) (pm rm : List K) (px rx : List (Fin N → Int)) (di n : Nat)
    (hm : b.mels = pm ++ rm) (hx : b.xprime = px ++ rx) (hpm : pm.length = di) (hpx : px.length = di) (hr : rm.length = rx.length) (hl : xs.length * op.maxConn ≤ rm.length)
    (hp : pad = true → di = n * op.maxConn ∧ rm = List.replicate rm.length 0 ∧ rx = List.replicate rm.length fun _ => b.dtype.cast 0) :
    ∃ rm' rx', rm'.length = rx'.length
      ∧ batchLoop R op pad b di n xs = some (⟨pm ++ xs.flatMap (pieceM R op pad) ++ rm', px ++ xs.flatMap (pieceX R op pad b.dtype) ++ rx', b.dtype⟩,
          ends di (xs.map fun x => (pieceM R op pad x).length))
      ∧ (pm ++ xs.flatMap (pieceM R op pad) ++ rm').length = b.mels.length := by
  induction xs generalizing b pm rm px rx di n with
  | nil =>
    refine ⟨rm, rx, hr, ?_, ?_⟩
    · simp only [batchLoop, List.flatMap_nil, List.append_nil, List.map_nil, ends, ← hm, ← hx]
    · simp [hm]
  | cons x xs ih =>
    have hrl := row_length_le R op x
    have hl' : op.maxConn + xs.length * op.maxConn ≤ rm.length := by
      simp only [List.length_cons, Nat.add_mul, Nat.one_mul] at hl; omega
    set entries := rowStored R op b.dtype (op.diag R x) x with he
    have hel : entries.length = (op.row R x).length := by rw [he, rowStored_length]
    have hes : entries.map Prod.snd = (op.row R x).map Prod.snd := rowStored_snd R op b.dtype x
    have hw := writeAll_spec entries b pm rm px rx di hm hx hpm hpx (by omega) (by omega)
    have hnext : (if pad then (n + 1) * op.maxConn else di + entries.length) = di + (pieceM R op pad x).length := by
      rw [pieceM_length]
      cases hpad : pad with
      | false => simp [hel]
      | true =>
        obtain ⟨h1, -⟩ := hp hpad
        simp only [if_true, h1, Nat.add_mul, Nat.one_mul]
    -- the buffer after the sample, split behind the piece of the sample
    have hpl := pieceM_le R op pad x
    have hge : entries.length ≤ (pieceM R op pad x).length := by
      rw [pieceM_length]; cases pad <;> simp <;> omega
    have hM : pm ++ entries.map Prod.snd ++ rm.drop entries.length = (pm ++ pieceM R op pad x) ++ rm.drop (pieceM R op pad x).length := by
      simp only [List.append_assoc]
      congr 1
      rw [pieceM_length]
      unfold pieceM
      rw [hes, List.append_assoc]
      congr 1
      cases hpad : pad with
      | false => simp [hel]
      | true =>
        obtain ⟨-, h2, -⟩ := hp hpad
        rw [h2]
        simp only [if_true, List.drop_replicate, ← List.replicate_add, List.length_replicate]
        congr 1
        omega
    have hX : px ++ entries.map Prod.fst ++ rx.drop entries.length = (px ++ pieceX R op pad b.dtype x) ++ rx.drop (pieceM R op pad x).length := by
      simp only [List.append_assoc]
      congr 1
      rw [pieceM_length]
      unfold pieceX
      rw [← he, List.append_assoc]
      congr 1
      cases hpad : pad with
      | false => simp [hel]
      | true =>
        obtain ⟨-, -, h3⟩ := hp hpad
        rw [h3]
        simp only [if_true, List.drop_replicate, ← List.replicate_add]
        congr 1
        omega
    obtain ⟨rm', rx', h1, h2, h3⟩ := ih ⟨(pm ++ pieceM R op pad x) ++ rm.drop (pieceM R op pad x).length, (px ++ pieceX R op pad b.dtype x) ++ rx.drop (pieceM R op pad x).length, b.dtype⟩
      (pm ++ pieceM R op pad x) (rm.drop (pieceM R op pad x).length) (px ++ pieceX R op pad b.dtype x) (rx.drop (pieceM R op pad x).length)
      (di + (pieceM R op pad x).length) (n + 1) rfl rfl (by simp [hpm]) (by simp [hpx, pieceX_length]) (by simp [hr]) (by simp only [List.length_drop]; omega) (by
        intro hpad
        obtain ⟨h1, h2, h3⟩ := hp hpad
        refine ⟨?_, ?_, ?_⟩
        · rw [pieceM_length, if_pos hpad, h1, Nat.add_mul, Nat.one_mul]
        · rw [h2]; simp
        · rw [h3]; simp)
    refine ⟨rm', rx', h1, ?_, ?_⟩
    · simp only [batchLoop, ← he, hw, hnext]
      rw [hM, hX, h2]
      simp only [List.flatMap_cons, List.append_assoc, List.map_cons, ends]
    · simp only [List.flatMap_cons, ← List.append_assoc]
      rw [h3, hm]
      simp; omega

theorem grow_ready (op : Bose K N) (gm : Nat → K) (gx : Nat → Fin N → Int) (b : Buf K N) (batch : Nat) (d : Dtype) (h : Ready op b) :
    Ready op (grow op gm gx b batch d) ∧ batch * op.maxConn ≤ (grow op gm gx b batch d).mels.length
      ∧ (grow op gm gx b batch d).dtype = if b.mels.length < batch * op.maxConn then d else b.dtype := by
  unfold grow
  dsimp only
  split_ifs with hc
  · refine ⟨⟨by simp, ?_⟩, by simp, rfl⟩
    have := h.2
    simp
    omega
  · exact ⟨h, by omega, rfl⟩

/-- the dtype of the result: that of the batch if the buffers had to be replaced. -/
def outDtype (op : Bose K N) (b : Buf K N) (batch : Nat) (d : Dtype) : Dtype := if b.mels.length < batch * op.maxConn then d else b.dtype

theorem flat_spec (R : Roots K) (op : Bose K N) (gm : Nat → K) (gx : Nat → Fin N → Int) (b : Buf K N) (h : Ready op b) (xs : List (Fin N → Nat)) (d : Dtype) (pad : Bool) :
    ∃ b', Ready op b' ∧ b'.dtype = outDtype op b xs.length d ∧ b'.mels.length = max b.mels.length (xs.length * op.maxConn)
      ∧ getConnFlattened R op gm gx b xs d pad = some (b', xs.flatMap (pieceX R op pad (outDtype op b xs.length d)), xs.flatMap (pieceM R op pad),
          ends 0 (xs.map fun x => (pieceM R op pad x).length), outDtype op b xs.length d) := by
  obtain ⟨hg1, hg2, hg3⟩ := grow_ready op gm gx b xs.length d h
  have hglen : (grow op gm gx b xs.length d).mels.length = max b.mels.length (xs.length * op.maxConn) := by
    unfold grow; dsimp only; split_ifs with hc
    · simp; omega
    · omega
  set g := grow op gm gx b xs.length d with hg
  have hc1 : (clear g pad).dtype = g.dtype := by unfold clear; split_ifs <;> rfl
  have hc2 : (clear g pad).mels.length = g.mels.length := by unfold clear; split_ifs <;> simp
  have hc3 : (clear g pad).xprime.length = g.xprime.length := by unfold clear; split_ifs <;> simp
  obtain ⟨rm', rx', h1, h2, h3⟩ := loop_spec R op pad xs (clear g pad) [] (clear g pad).mels [] (clear g pad).xprime 0 0 rfl rfl rfl rfl (by rw [hc2, hc3]; exact hg1.1)
    (by rw [hc2]; exact hg2) (by
      intro hpad
      refine ⟨by simp, ?_, ?_⟩
      · rw [hc2]; unfold clear; rw [if_pos hpad]; simp [List.map_const']
      · rw [hc1, hc2]; unfold clear; rw [if_pos hpad]; simp [List.map_const', hg1.1])
  simp only [List.nil_append] at h2 h3
  have hXM : (xs.flatMap (pieceX R op pad (clear g pad).dtype)).length = (xs.flatMap (pieceM R op pad)).length := by
    simp only [List.length_flatMap, pieceX_length]
  have hd : (clear g pad).dtype = outDtype op b xs.length d := by rw [hc1, hg3]; rfl
  have hlast : (ends 0 (xs.map fun x => (pieceM R op pad x).length)).getLastD 0 = (xs.flatMap (pieceM R op pad)).length := by
    rw [ends_last, List.length_flatMap]; simp
  refine ⟨⟨xs.flatMap (pieceM R op pad) ++ rm', xs.flatMap (pieceX R op pad (clear g pad).dtype) ++ rx', (clear g pad).dtype⟩, ⟨?_, ?_⟩, hd, ?_, ?_⟩
  · simp [h1, hXM]
  · rw [h3, hc2]; exact hg1.2
  · rw [← hglen, ← hc2]; exact h3
  · unfold getConnFlattened
    simp only [← hg, h2, hlast]
    rw [List.take_left' rfl, List.take_left' hXM, hd]

theorem fresh_ready (op : Bose K N) (gm : Nat → K) (gx : Nat → Fin N → Int) : Ready op (fresh op gm gx) := by
  unfold fresh; exact ⟨by simp, by simp⟩

/-- the dtypes of the batches in a history. -/
def dtypesOf : List (Call N) → List Dtype
  | [] => []
  | .conn _ :: cs => dtypesOf cs
  | .flat _ d _ :: cs => d :: dtypesOf cs

theorem run_spec (R : Roots K) (op : Bose K N) (gm : Nat → K) (gx : Nat → Fin N → Int) (cs : List (Call N)) (b : Buf K N) (h : Ready op b) :
    ∃ b', run R op gm gx b cs = some b' ∧ Ready op b' ∧ (b'.dtype = b.dtype ∨ b'.dtype ∈ dtypesOf cs) := by
  induction cs generalizing b with
  | nil => exact ⟨b, rfl, h, Or.inl rfl⟩
  | cons c cs ih =>
    cases c with
    | conn x =>
      obtain ⟨b1, h1, h2, -, h3⟩ := getConn_spec R op b h x
      obtain ⟨b', h4, h5, h6⟩ := ih b1 h1
      refine ⟨b', ?_, h5, ?_⟩
      · simp only [run, step, h3, Option.map_some, h4]
      · rw [h2] at h6; simpa [dtypesOf] using h6
    | flat xs d pad =>
      obtain ⟨b1, h1, h2, -, h3⟩ := flat_spec R op gm gx b h xs d pad
      obtain ⟨b', h4, h5, h6⟩ := ih b1 h1
      refine ⟨b', ?_, h5, ?_⟩
      · simp only [run, step, h3, Option.map_some, h4]
      · rw [h2] at h6
        rcases h6 with h6 | h6
        · unfold outDtype at h6
          split_ifs at h6
          · right; rw [h6]; simp [dtypesOf]
          · left; exact h6
        · right; simp [dtypesOf, h6]

theorem foldl_pieces {α β : Type} (f : α → List β) (xs : List α) (o : List β) (s : List Nat) :
    xs.foldl (fun out x => (out.1 ++ f x, out.2 ++ [(out.1 ++ f x).length])) (o, s) = (o ++ xs.flatMap f, s ++ ends o.length (xs.map fun x => (f x).length)) := by
  induction xs generalizing o s with
  | nil => simp [ends]
  | cons x xs ih => rw [List.foldl_cons, ih]; simp [ends]

/-! ## C196 -/

/-- C196: whatever was called before on an object, and whatever the arrays of the object contain, no call writes outside of the arrays. -/
theorem C196_in_bounds (R : Roots K) (op : Bose K N) (gm : Nat → K) (gx : Nat → Fin N → Int) (cs : List (Call N)) :
    ∃ b, run R op gm gx (fresh op gm gx) cs = some b ∧ b.mels.length = b.xprime.length ∧ op.maxConn ≤ b.mels.length
      ∧ (∀ x, (getConn R op b x).isSome) ∧ ∀ xs d pad, (getConnFlattened R op gm gx b xs d pad).isSome := by
  obtain ⟨b, h1, h2, -⟩ := run_spec R op gm gx cs _ (fresh_ready op gm gx)
  refine ⟨b, h1, h2.1, h2.2, fun x => ?_, fun xs d pad => ?_⟩
  · obtain ⟨b', -, -, -, h⟩ := getConn_spec R op b h2 x
    rw [h]; rfl
  · obtain ⟨b', -, -, -, h⟩ := flat_spec R op gm gx b h2 xs d pad
    rw [h]; rfl

omit [CommRing K] in
theorem holds_of_run {B : Nat} {b : Buf K N} {cs : List (Call N)} (hB : Holds float64 B) (hcs : ∀ d ∈ dtypesOf cs, Holds d B)
    (h : b.dtype = float64 ∨ b.dtype ∈ dtypesOf cs) : Holds b.dtype B := by
  rcases h with h | h
  · rw [h]; exact hB
  · exact hcs _ h

/-- C196: after any history in which all dtypes hold the numbers up to `B`, `get_conn` gives for a sample with occupations below `B` the connected
    configurations and matrix elements of the operator; nothing of the earlier calls is in the result. -/
theorem C196_get_conn (R : Roots K) (op : Bose K N) (gm : Nat → K) (gx : Nat → Fin N → Int) (cs : List (Call N)) (B : Nat) (hB : B ≤ 2 ^ 53)
    (hcs : ∀ d ∈ dtypesOf cs, d.lo ≤ 0 ∧ (B : Int) ≤ d.hi) (x : Fin N → Nat) (hx : ∀ s, x s < B) :
    ∃ b b' d, run R op gm gx (fresh op gm gx) cs = some b
      ∧ getConn R op b x = some (b', (op.getConn R x).map (fun p => fun s => (p.1 s : Int)), (op.getConn R x).map Prod.snd, d) := by
  obtain ⟨b, h1, h2, h3⟩ := run_spec R op gm gx cs _ (fresh_ready op gm gx)
  obtain ⟨b', -, -, -, h⟩ := getConn_spec R op b h2 x
  have hh : Holds b.dtype B := holds_of_run ⟨by decide, by simp only [float64]; exact_mod_cast hB⟩ hcs h3
  refine ⟨b, b', b.dtype, h1, ?_⟩
  rw [h, rowStored_fst hh R op _ x hx, Verif.Ham.C22_get_conn_is_kernel]
  rfl

/-- C196: the same for `get_conn_flattened`, without padding. -/
theorem C196_flattened (R : Roots K) (op : Bose K N) (gm : Nat → K) (gx : Nat → Fin N → Int) (cs : List (Call N)) (B : Nat) (hB : B ≤ 2 ^ 53)
    (hcs : ∀ d ∈ dtypesOf cs, d.lo ≤ 0 ∧ (B : Int) ≤ d.hi) (d : Dtype) (hd : d.lo ≤ 0 ∧ (B : Int) ≤ d.hi) (xs : List (Fin N → Nat)) (hx : ∀ x ∈ xs, ∀ s, x s < B) :
    ∃ b b' d', run R op gm gx (fresh op gm gx) cs = some b
      ∧ getConnFlattened R op gm gx b xs d false = some (b', (op.flattened R xs).1.map (fun p => fun s => (p.1 s : Int)), (op.flattened R xs).1.map Prod.snd,
          (op.flattened R xs).2, d') := by
  obtain ⟨b, h1, h2, h3⟩ := run_spec R op gm gx cs _ (fresh_ready op gm gx)
  obtain ⟨b', -, -, -, h⟩ := flat_spec R op gm gx b h2 xs d false
  have hh : Holds b.dtype B := holds_of_run ⟨by decide, by simp only [float64]; exact_mod_cast hB⟩ hcs h3
  have ho : Holds (outDtype op b xs.length d) B := by unfold outDtype; split_ifs; exacts [hd, hh]
  refine ⟨b, b', outDtype op b xs.length d, h1, ?_⟩
  rw [h]
  have hf : op.flattened R xs = (xs.flatMap (op.row R), ends 0 (xs.map fun x => (op.row R x).length)) := by
    have := foldl_pieces (op.row R) xs [] []
    simpa [Bose.flattened] using this
  rw [hf]
  congr 1
  refine Prod.ext rfl (Prod.ext ?_ (Prod.ext ?_ (Prod.ext ?_ rfl)))
  · simp only [List.map_flatMap]
    refine List.flatMap_congr fun x hxs => ?_
    simp only [pieceX, Bool.false_eq_true, if_false, List.append_nil]
    rw [rowStored_fst ho R op _ x (hx x hxs)]
    rfl
  · simp only [List.map_flatMap]
    refine List.flatMap_congr fun x hxs => ?_
    simp [pieceM]
  · simp [pieceM]

/-- C196: and with padding: rows of `max_conn_size` entries, filled up with zeros. -/
theorem C196_flattened_pad (R : Roots K) (op : Bose K N) (gm : Nat → K) (gx : Nat → Fin N → Int) (cs : List (Call N)) (B : Nat) (hB : B ≤ 2 ^ 53)
    (hcs : ∀ d ∈ dtypesOf cs, d.lo ≤ 0 ∧ (B : Int) ≤ d.hi) (d : Dtype) (hd : d.lo ≤ 0 ∧ (B : Int) ≤ d.hi) (xs : List (Fin N → Nat)) (hx : ∀ x ∈ xs, ∀ s, x s < B) :
    ∃ b b' d', run R op gm gx (fresh op gm gx) cs = some b
      ∧ getConnFlattened R op gm gx b xs d true = some (b', (op.flattenedPad R xs).1.map (fun p => fun s => (p.1 s : Int)), (op.flattenedPad R xs).1.map Prod.snd,
          (op.flattenedPad R xs).2, d')
      ∧ (op.flattenedPad R xs).2 = (List.range xs.length).map fun k => (k + 1) * op.maxConn := by
  obtain ⟨b, h1, h2, h3⟩ := run_spec R op gm gx cs _ (fresh_ready op gm gx)
  obtain ⟨b', -, -, -, h⟩ := flat_spec R op gm gx b h2 xs d true
  have hh : Holds b.dtype B := holds_of_run ⟨by decide, by simp only [float64]; exact_mod_cast hB⟩ hcs h3
  have ho : Holds (outDtype op b xs.length d) B := by unfold outDtype; split_ifs; exacts [hd, hh]
  let piece : (Fin N → Nat) → List ((Fin N → Nat) × K) := fun x => op.row R x ++ List.replicate (op.maxConn - (op.row R x).length) (fun _ => 0, 0)
  have hpl : ∀ x, (piece x).length = op.maxConn := by
    intro x
    have := row_length_le R op x
    simp [piece]; omega
  have hf : op.flattenedPad R xs = (xs.flatMap piece, ends 0 (xs.map fun x => (piece x).length)) := by
    have := foldl_pieces piece xs [] []
    simpa [Bose.flattenedPad, piece] using this
  refine ⟨b, b', outDtype op b xs.length d, h1, ?_, ?_⟩
  · rw [h, hf]
    congr 1
    refine Prod.ext rfl (Prod.ext ?_ (Prod.ext ?_ (Prod.ext ?_ rfl)))
    · simp only [List.map_flatMap]
      refine List.flatMap_congr fun x hxs => ?_
      simp only [pieceX, if_true, piece, List.map_append, List.map_replicate]
      rw [rowStored_fst ho R op _ x (hx x hxs), cast_of_holds ho 0 le_rfl (by omega)]
      rfl
    · simp only [List.map_flatMap]
      refine List.flatMap_congr fun x hxs => ?_
      simp [pieceM, piece]
    · simp only [pieceM_length, hpl, if_true]
  · rw [hf]
    simp only [hpl]
    have : ∀ (ys : List (Fin N → Nat)) a, ends a (ys.map fun _ => op.maxConn) = (List.range ys.length).map fun k => a + (k + 1) * op.maxConn := by
      intro ys
      induction ys with
      | nil => intro a; rfl
      | cons y ys ih =>
        intro a
        simp only [List.map_cons, ends, ih, List.length_cons, List.range_succ_eq_map, List.map_map]
        congr 1
        · simp
        · refine List.map_congr_left fun k _ => ?_
          simp only [Function.comp, Nat.succ_eq_add_one, Nat.add_mul, Nat.one_mul]
          omega
    simpa using this xs 0

/-! ## C197 -/

/-- C197: the dtype of the result of `get_conn` is decided by an earlier batch: after `get_conn_flattened` of two or more samples of the dtype `d` on a new
    object, `get_conn` returns arrays of dtype `d`, for every sample. -/
theorem C197_dtype_refuted (R : Roots K) (op : Bose K N) (gm : Nat → K) (gx : Nat → Fin N → Int) (xs : List (Fin N → Nat)) (hxs : 2 ≤ xs.length) (d : Dtype) (pad : Bool)
    (x : Fin N → Nat) :
    ∃ b b' ys ms, run R op gm gx (fresh op gm gx) [.flat xs d pad] = some b ∧ getConn R op b x = some (b', ys, ms, d) := by
  obtain ⟨b, h1, h2, -, h3⟩ := flat_spec R op gm gx _ (fresh_ready op gm gx) xs d pad
  have hd : outDtype op (fresh op gm gx) xs.length d = d := by
    unfold outDtype
    refine if_pos ?_
    have hl : (fresh op gm gx).mels.length = op.maxConn := by simp [fresh]
    rw [hl]
    have h0 : 0 < op.maxConn := by unfold Bose.maxConn; omega
    have := Nat.mul_le_mul_right op.maxConn hxs
    omega
  rw [hd] at h2
  obtain ⟨b', -, -, -, h⟩ := getConn_spec R op b h1 x
  rw [h2] at h
  exact ⟨b, b', _, _, by simp only [run, step, h3, Option.map_some], h⟩

/-- C197: and the values: if the sample has an occupation that `d` does not hold, the first configuration returned (which is the sample itself on a new
    object) is another one. -/
theorem C197_value_refuted (R : Roots K) (op : Bose K N) (gm : Nat → K) (gx : Nat → Fin N → Int) (xs : List (Fin N → Nat)) (hxs : 2 ≤ xs.length) (d : Dtype) (pad : Bool)
    (hd : ∀ a, d.junk a ≤ d.hi) (x : Fin N → Nat) (s : Fin N) (hs : d.hi < x s) (hx : ∀ t, x t < 2 ^ 53) :
    (∃ b' ys ms, getConn R op (fresh op gm gx) x = some (b', (fun t => (x t : Int)) :: ys, ms, float64))
      ∧ ∃ b b' y ys ms, run R op gm gx (fresh op gm gx) [.flat xs d pad] = some b ∧ getConn R op b x = some (b', y :: ys, ms, d) ∧ y ≠ fun t => (x t : Int) := by
  constructor
  · obtain ⟨b', -, -, -, h⟩ := getConn_spec R op _ (fresh_ready op gm gx) x
    have hh : Holds (fresh op gm gx).dtype (2 ^ 53) := ⟨by simp [fresh, float64], by simp [fresh, float64]⟩
    rw [rowStored_fst hh R op _ x hx] at h
    exact ⟨b', _, _, h⟩
  · obtain ⟨b, b', ys, ms, h1, h2⟩ := C197_dtype_refuted R op gm gx xs hxs d pad x
    obtain ⟨c, hc1, hc2, -⟩ := run_spec R op gm gx [.flat xs d pad] _ (fresh_ready op gm gx)
    have hcb : c = b := by rw [h1] at hc1; exact (Option.some.inj hc1).symm
    subst hcb
    obtain ⟨b'', -, -, -, h⟩ := getConn_spec R op c hc2 x
    have hdt : c.dtype = d := by
      rw [h2] at h
      exact ((Prod.mk.inj (Prod.mk.inj (Prod.mk.inj (Option.some.inj h)).2).2).2).symm
    rw [hdt] at h
    refine ⟨c, b'', stored d x, _, _, h1, h, ?_⟩
    intro he
    have := congrFun he s
    simp only [stored, Dtype.cast] at this
    rw [if_neg (by omega)] at this
    have := hd (x s : Int)
    omega

/-- C197 (part that holds): between two histories in which every dtype holds the numbers up to `B`, the configurations and matrix elements for samples with
    occupations below `B` agree.  Missing: the dtype, and histories with smaller dtypes. -/
theorem C197_partial (R : Roots K) (op : Bose K N) (gm gm' : Nat → K) (gx gx' : Nat → Fin N → Int) (cs cs' : List (Call N)) (B : Nat) (hB : B ≤ 2 ^ 53)
    (hcs : ∀ d ∈ dtypesOf cs, d.lo ≤ 0 ∧ (B : Int) ≤ d.hi) (hcs' : ∀ d ∈ dtypesOf cs', d.lo ≤ 0 ∧ (B : Int) ≤ d.hi) (x : Fin N → Nat) (hx : ∀ s, x s < B) :
    ∃ b c b' c' d d' ys ms, run R op gm gx (fresh op gm gx) cs = some b ∧ run R op gm' gx' (fresh op gm' gx') cs' = some c
      ∧ getConn R op b x = some (b', ys, ms, d) ∧ getConn R op c x = some (c', ys, ms, d') := by
  obtain ⟨b, b', d, h1, h2⟩ := C196_get_conn R op gm gx cs B hB hcs x hx
  obtain ⟨c, c', d', h3, h4⟩ := C196_get_conn R op gm' gx' cs' B hB hcs' x hx
  exact ⟨b, c, b', c', d, d', _, _, h1, h3, h2, h4⟩

end

/-! ## Examples -/

/-- int8 with wrap-around. -/
def int8 : Dtype := ⟨-128, 127, fun a => (a + 128) % 256 - 128⟩

/-- int8 keeps 0 … 127 and wraps 128 to -128. -/
example : int8.cast 127 = 127 ∧ int8.cast 128 = -128 ∧ ∀ a, int8.junk a ≤ int8.hi := by
  refine ⟨by decide, by decide, fun a => ?_⟩
  simp only [int8]; omega

/-- the hypotheses of C196 hold for a history with an int8 batch of three samples and `B = 10`. -/
example : (10 : Nat) ≤ 2 ^ 53 ∧ (∀ d ∈ dtypesOf (N := 2) [.conn ![3, 1], .flat [![1, 0], ![0, 2], ![4, 4]] int8 false, .conn ![0, 0]], d.lo ≤ 0 ∧ ((10 : Nat) : Int) ≤ d.hi)
    ∧ ∀ s, (![3, 9] : Fin 2 → Nat) s < 10 := by
  refine ⟨by norm_num, ?_, by decide⟩
  simp [dtypesOf, int8]

/-- those of C197: two samples in int8, then a sample with 200 bosons on a site. -/
example : 2 ≤ [![1, 0], (![0, 2] : Fin 2 → Nat)].length ∧ int8.hi < ((![200, 0] : Fin 2 → Nat) 0 : Int) ∧ ∀ t, (![200, 0] : Fin 2 → Nat) t < 2 ^ 53 := by
  refine ⟨by decide, by decide, by decide⟩

end Verif.BoseBuf
