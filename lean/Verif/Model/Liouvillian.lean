import Verif.Model.Hamiltonian

/-! Model of netket/operator/_local_liouvillian.py (`LocalLiouvillian`).

A configuration of the doubled space is the pair of its two halves (`x[0:N]`, `x[N:2N]`; the views `_xrv`,
`_xcv` of `_xprime`). Operators enter the kernels through their rows (`get_conn`) or through flattened rows
and sections (`get_conn_flattened`). Exact arithmetic; `I` is `1j`, `halfI` is `0.5j`, `star` is `np.conj`.
When the entries do not fit in the flattened buffers (`_max_conn_size * batch_size`, see C17) the slice
assignments of the kernel have different lengths; the model stops with an error there (numba's broadcasting of
a single leftover row is not modelled). -/

namespace Verif.Liou
open Verif.Hilbert Verif.LocalOp Verif.Ham

section
variable {K : Type} [CommRing K] [DecidableEq K] [Star K] {α : Type} [LinearOrder α] [Inhabited α] {N : Nat}

/-- `L.conjugate().transpose()` (_local_liouvillian.py:115). -/
def dagger (cut : Cutoff K) (hi : Fin N → List α) (l : LOp K α N) : Except Err (LOp K α N) :=
  match conjOp cut hi l with
  | .error e => .error e
  | .ok c => transposeOp cut hi c

/-- _local_liouvillian.py:114-116: `Hnh = Hnh - 0.5j * L.conjugate().transpose() @ L` for every jump
    operator. -/
def hnhLoop (cut : Cutoff K) (hi : Fin N → List α) (halfI : K) :
    Except Err (LOp K α N) → List (LOp K α N) → Except Err (LOp K α N)
  | h, [] => h
  | h, l :: ls =>
    hnhLoop cut hi halfI (minus cut hi h (times cut hi (scaled cut hi halfI (dagger cut hi l)) (.ok l))) ls

/-- _local_liouvillian.py:110-118 `_compute_hnh`: `Hnh = 1.0 * self._H`, then the loop. -/
def computeHnh (cut : Cutoff K) (hi : Fin N → List α) (halfI : K) (h : LOp K α N) (ls : List (LOp K α N)) :
    Except Err (LOp K α N) :=
  hnhLoop cut hi halfI (scaled cut hi 1 (.ok h)) ls

/-- _local_liouvillian.py:72: `[op.copy(dtype=dtype) for op in jump_ops]`. -/
def copyAll (cut : Cutoff K) (hi : Fin N → List α) : List (LOp K α N) → Except Err (List (LOp K α N))
  | [] => .ok []
  | l :: ls =>
    match copy cut hi l with
    | .error e => .error e
    | .ok c =>
      match copyAll cut hi ls with
      | .error e => .error e
      | .ok cs => .ok (c :: cs)

/-- the object (_local_liouvillian.py:72-80): non-hermitian Hamiltonian and jump operators. -/
structure Liou (K α : Type) (N : Nat) where
  hnh : LOp K α N
  jumps : List (LOp K α N)

/-- _local_liouvillian.py:64-80 constructor (`halfI` is `0.5j`). -/
def mkLiou (cut : Cutoff K) (hi : Fin N → List α) (halfI : K) (h : LOp K α N) (ls : List (LOp K α N)) :
    Except Err (Liou K α N) :=
  match copyAll cut hi ls with
  | .error e => .error e
  | .ok cs =>
    match computeHnh cut hi halfI h cs with
    | .error e => .error e
    | .ok hn => .ok ⟨hn, cs⟩

/-- _local_liouvillian.py:113, 116, 120: `max_conn_size`. -/
def maxConn (cut : Cutoff K) (op : Liou K α N) : Nat :=
  (op.jumps.map fun l => maxConnSize cut l ^ 2).sum + 2 * maxConnSize cut op.hnh

/-- _local_liouvillian.py:134-142 `add_jump_operator(s)`: appended without a copy, then `_compute_hnh`. -/
def addJumps (cut : Cutoff K) (hi : Fin N → List α) (halfI : K) (h : LOp K α N) (op : Liou K α N)
    (ls : List (LOp K α N)) : Except Err (Liou K α N) :=
  match computeHnh cut hi halfI h (op.jumps ++ ls) with
  | .error e => .error e
  | .ok hn => .ok ⟨hn, op.jumps ++ ls⟩

end

/-! ### get_conn -/

/-- `buf[i:i+n] = vals` on the first axis: lengths agree, or one value is broadcast, or `ValueError`. Slices
    are clipped at the end of the buffer (netket/operator/_local_liouvillian.py:153, 159, 172). -/
def writeSlice {β : Type} (buf : List β) (i n : Nat) (vals : List β) : Except Err (List β) :=
  let m := min (i + n) buf.length - min i buf.length
  if vals.length = m then .ok (buf.take i ++ vals ++ buf.drop (i + n))
  else
    match vals with
    | [v] => .ok (buf.take i ++ List.replicate m v ++ buf.drop (i + n))
    | _ => .error .valueError

/-- the buffers `_xrv`, `_xcv`, `_mels` and the position `i` (_local_liouvillian.py:122-129, 148). -/
structure LBuf (X K : Type) where
  xr : List X
  xc : List X
  mels : List K
  i : Nat

/-- three slice assignments and `i = i + n` (e.g. _local_liouvillian.py:151-154); the third slice may have
    another length (`nm`). -/
def LBuf.write {X K : Type} (b : LBuf X K) (n nm : Nat) (rs cs : List X) (ms : List K) :
    Except Err (LBuf X K) :=
  match writeSlice b.xr b.i n rs with
  | .error e => .error e
  | .ok xr =>
    match writeSlice b.xc b.i n cs with
    | .error e => .error e
    | .ok xc =>
      match writeSlice b.mels b.i nm ms with
      | .error e => .error e
      | .ok m => .ok ⟨xr, xc, m, b.i + n⟩

section
variable {X K : Type} [CommRing K] [Star K]

/-- _local_liouvillian.py:169-173: one block per entry of the row of the left factor. -/
def jumpRows (c : List (X × K)) : LBuf X K → List (X × K) → Except Err (LBuf X K)
  | b, [] => .ok b
  | b, p :: ps =>
    match b.write c.length c.length [p.1] (c.map Prod.fst) (c.map fun q => p.2 * star q.2) with
    | .error e => .error e
    | .ok b' => jumpRows c b' ps

/-- _local_liouvillian.py:162-173: the loop over the jump operators (given by rows). -/
def jumpLoop (xr xc : X) : LBuf X K → List (X → List (X × K)) → Except Err (LBuf X K)
  | b, [] => .ok b
  | b, l :: ls =>
    match jumpRows (l xc) b (l xr) with
    | .error e => .error e
    | .ok b' => jumpLoop xr xc b' ls

/-- _local_liouvillian.py:144-175 `get_conn`. Line 159 uses `len(mel_r)` for the elements of the column. -/
def getConn (I : K) (hnh : X → List (X × K)) (jumps : List (X → List (X × K))) (xbuf0 xbuf1 : List X)
    (mbuf : List K) (xr xc : X) : Except Err (List ((X × X) × K)) :=
  match (⟨xbuf0, xbuf1, mbuf, 0⟩ : LBuf X K).write (hnh xr).length (hnh xr).length
      ((hnh xr).map Prod.fst) [xc] ((hnh xr).map fun p => -I * p.2) with
  | .error e => .error e
  | .ok b =>
    match b.write (hnh xc).length (hnh xr).length [xr] ((hnh xc).map Prod.fst)
        ((hnh xc).map fun p => I * star p.2) with
    | .error e => .error e
    | .ok b =>
      match jumpLoop xr xc b jumps with
      | .error e => .error e
      | .ok b => .ok (((b.xr.zip b.xc).zip b.mels).take b.i)

/-! ### get_conn_flattened -/

/-- flattened rows of one operator (_local_liouvillian.py:193-228), its sections, and the end of the last row used. -/
structure Track (X K : Type) where
  flat : List (X × K)
  secs : List Nat
  prev : Nat

/-- `arr[n_i:n_f]` with `n_f = sections[i]`, then `n_i = n_f` (e.g. _local_liouvillian.py:319-325). -/
def Track.next (t : Track X K) : List (X × K) × Track X K :=
  ((t.flat.drop t.prev).take (t.secs.headD 0 - t.prev), ⟨t.flat, t.secs.tail, t.secs.headD 0⟩)

/-- _local_liouvillian.py:318-355: the entries of one configuration from the rows of all terms. -/
def rowOf (I : K) (x : X × X) (r c : List (X × K)) (ls : List (List (X × K) × List (X × K))) :
    List ((X × X) × K) :=
  r.map (fun p => ((p.1, x.2), -I * p.2)) ++ c.map (fun p => ((x.1, p.1), I * star p.2))
    ++ ls.flatMap fun l => l.1.flatMap fun p => l.2.map fun q => ((p.1, q.1), p.2 * star q.2)

/-- _local_liouvillian.py:317-362: the loop over the batch. -/
def kernelRows (I : K) : Track X K → Track X K → List (Track X K × Track X K) → List (X × X) →
    List (List ((X × X) × K))
  | _, _, _, [] => []
  | r, c, ls, x :: xs =>
    rowOf I x r.next.1 c.next.1 (ls.map fun l => (l.1.next.1, l.2.next.1))
      :: kernelRows I r.next.2 c.next.2 (ls.map fun l => (l.1.next.2, l.2.next.2)) xs

/-- _local_liouvillian.py:309-315: all row ends zero. -/
def track (p : List (X × K) × List Nat) : Track X K := ⟨p.1, p.2, 0⟩

/-- the rows computed by `get_conn_flattened` (_local_liouvillian.py:181-243, 317-355); operators by
    their `get_conn_flattened`. -/
def batchRows (I : K) (hnh : List X → List (X × K) × List Nat)
    (jumps : List (List X → List (X × K) × List Nat)) (xs : List (X × X)) : List (List ((X × X) × K)) :=
  kernelRows I (track (hnh (xs.map Prod.fst))) (track (hnh (xs.map Prod.snd)))
    (jumps.map fun l => (track (l (xs.map Prod.fst)), track (l (xs.map Prod.snd)))) xs

/-- _local_liouvillian.py:181-364 with `pad=False`; `room` is the length of the buffers (245-250). -/
def flattened (I : K) (room : Nat) (hnh : List X → List (X × K) × List Nat)
    (jumps : List (List X → List (X × K) × List Nat)) (xs : List (X × X)) :
    Except Err (List ((X × X) × K) × List Nat) :=
  let rows := batchRows I hnh jumps xs
  if (rows.map List.length).sum ≤ room then
    .ok (rows.flatten, runningTotals 0 (rows.map List.length))
  else .error .valueError

/-- _local_liouvillian.py:196-205, 230-240: `np.max(np.diff(sections))` for more than one configuration,
    `sections[0]` otherwise. -/
def maxConns (secs : List Nat) : Nat :=
  if secs.length > 1 then ((secs.zip secs.tail).map fun p => p.2 - p.1).foldl max 0 else secs.headD 0

/-- _local_liouvillian.py:242, 253: width of the padded rows. -/
def padWidth (hnh : List X → List (X × K) × List Nat) (jumps : List (List X → List (X × K) × List Nat))
    (xs : List (X × X)) : Nat :=
  (jumps.map fun l => maxConns (l (xs.map Prod.fst)).2 * maxConns (l (xs.map Prod.snd)).2).sum
    + maxConns (hnh (xs.map Prod.fst)).2 + maxConns (hnh (xs.map Prod.snd)).2

/-- write a row at position `off`; _local_liouvillian.py:357-359: set the following elements to zero. -/
def padWrite (buf : Nat → (X × X) × K) (off : Nat) (row : List ((X × X) × K)) : Nat → (X × X) × K :=
  fun k =>
    if k < off then buf k
    else if h : k - off < row.length then row[k - off]
    else if k - off < 2 * row.length then ((buf k).1, 0)
    else buf k

/-- _local_liouvillian.py:317-362 with `pad > 0`: row `i` starts at `i * pad`. -/
def padLoop (pad : Nat) : (Nat → (X × X) × K) → Nat → List (List ((X × X) × K)) → (Nat → (X × X) × K)
  | buf, _, [] => buf
  | buf, i, r :: rs => padLoop pad (padWrite buf (i * pad) r) (i + 1) rs

/-- every row fits in the buffers (_local_liouvillian.py:245-250, 318-355). -/
def fitsPad (pad room : Nat) : Nat → List (List ((X × X) × K)) → Bool
  | _, [] => true
  | i, r :: rs => decide (i * pad + r.length ≤ room) && fitsPad pad room (i + 1) rs

/-- _local_liouvillian.py:181-364 with `pad=True`; the buffers are cleared first (257-258), `z` the cleared
    configuration. A width of zero means no padding (357). Batch not empty. -/
def flattenedPad (I : K) (z : X × X) (room : Nat) (hnh : List X → List (X × K) × List Nat)
    (jumps : List (List X → List (X × K) × List Nat)) (xs : List (X × X)) :
    Except Err (List ((X × X) × K) × List Nat) :=
  let pad := padWidth hnh jumps xs
  if pad = 0 then flattened I room hnh jumps xs
  else
    let rows := batchRows I hnh jumps xs
    if fitsPad pad room 0 rows then
      .ok ((List.range (xs.length * pad)).map (padLoop pad (fun _ => (z, 0)) 0 rows),
           (List.range xs.length).map fun i => (i + 1) * pad)
    else .error .valueError

end

/-! ### to_linear_operator -/

/-- numpy `@` of `n × n` arrays, used at _local_liouvillian.py:409-411. -/
def mmul {K : Type} [CommRing K] (n : Nat) (a b : Nat → Nat → K) : Nat → Nat → K :=
  fun i j => ((List.range n).map fun k => a i k * b k j).sum

/-- _local_liouvillian.py:404-413 `matvec`: `iHnh`, `J`, `J_c` dense matrices of size `n`,
    `rho_vec.reshape((M, M))` row-major. Sums are accumulated in `drho`. -/
def matvec {K : Type} [CommRing K] [Star K] (n : Nat) (iH : Nat → Nat → K)
    (js : List ((Nat → Nat → K) × (Nat → Nat → K))) (v : Nat → K) : Nat → Nat → K :=
  let rho := fun i j => v (i * n + j)
  js.foldl (fun d j => fun r c => d r c + mmul n (mmul n j.1 rho) j.2 r c)
    (fun r c => mmul n iH rho r c + mmul n rho (fun a b => star (iH b a)) r c)

/-- _local_liouvillian.py:428-439 `matvec` with `append_trace=True`: `M^2 + 1` components. -/
def matvecTrace {K : Type} [CommRing K] [Star K] (n : Nat) (iH : Nat → Nat → K)
    (js : List ((Nat → Nat → K) × (Nat → Nat → K))) (v : Nat → K) : List K :=
  ((List.range (n * n)).map fun k => matvec n iH js v (k / n) (k % n))
    ++ [((List.range n).map fun i => v (i * n + i)).sum]

/-- _local_liouvillian.py:390, 396: `[j.to_sparse() for j in ...]`. -/
def denseAll {K O : Type} (dense : O → Except Err (Nat → Nat → K)) : List (Except Err O) →
    Except Err (List (Nat → Nat → K))
  | [] => .ok []
  | .error e :: _ => .error e
  | .ok o :: os =>
    match dense o with
    | .error e => .error e
    | .ok m =>
      match denseAll dense os with
      | .error e => .error e
      | .ok ms => .ok (m :: ms)

/-- _local_liouvillian.py:387-399: the matrices `iHnh`, `J_ops`, `J_ops_c`; `dense` is `to_sparse` or
    `to_dense` (the `sparse` flag only changes the storage). -/
def linearParts {K : Type} [CommRing K] [DecidableEq K] [Star K] {α : Type} [LinearOrder α] [Inhabited α]
    {N : Nat} (cut : Cutoff K) (hi : Fin N → List α) (I : K) (dense : LOp K α N → Except Err (Nat → Nat → K))
    (op : Liou K α N) : Except Err ((Nat → Nat → K) × List ((Nat → Nat → K) × (Nat → Nat → K))) :=
  match denseAll dense [scaled cut hi (-I) (.ok op.hnh)] with
  | .error e => .error e
  | .ok iH =>
    match denseAll dense (op.jumps.map .ok) with
    | .error e => .error e
    | .ok js =>
      match denseAll dense (op.jumps.map (dagger cut hi)) with
      | .error e => .error e
      | .ok jc => .ok (iH.headD fun _ _ => 0, js.zip jc)

/-- _local_liouvillian.py:407-411: `drho` has the dtype of the argument, `drho += complex` needs
    `can_cast(complex, dtype, same_kind)`. -/
def matvecDtype (iH rho : NpType) : Except Err NpType :=
  if canCast (promote iH rho) rho then .ok rho else .error .typeError

end Verif.Liou
