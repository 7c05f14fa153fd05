import Verif.Spec.RandomLaw
import Mathlib.Data.List.GetD
import Mathlib.Data.Nat.Factorial.Basic
import Mathlib.Tactic.Ring
import Mathlib.Tactic.Linarith

/-! The law of the loop of the constrained samplers. -/

namespace Verif.RandomBatch
open Verif.Hilbert (Err)
open Verif.RandomState

theorem fillLoop_shift (inc : Int) (full : Int → Bool) (draw : Nat → Nat → Nat) (n k j : Nat) (out : List Int) (sites : List Nat) :
    fillLoop inc full draw n (k + j) out sites = fillLoop inc full (fun i => draw (i + j)) n k out sites := by
  induction n generalizing k out sites with
  | zero => rfl
  | succ n ih =>
    simp only [fillLoop]
    split
    · rfl
    · split
      · rfl
      · split
        · rfl
        · rw [show k + j + 1 = k + 1 + j by omega]
          exact ih (k + 1) _ _

theorem sum_mod (f : Nat → Nat) (m q : Nat) (hm : 0 < m) :
    ∑ a ∈ Finset.range (m * q), f (a % m) = q * ∑ s ∈ Finset.range m, f s := by
  induction q with
  | zero => simp
  | succ q ih =>
    rw [Nat.mul_succ, Finset.sum_range_add, ih, Nat.succ_mul]
    congr 1
    refine Finset.sum_congr rfl fun x hx => ?_
    rw [Nat.mul_add_mod, Nat.mod_eq_of_lt (Finset.mem_range.1 hx)]

/-- the number of ways for the loop alone. -/
def loopWays (M : Nat) (inc : Int) (full : Int → Bool) (n : Nat) (out : List Int) (sites : List Nat) (x : List Int) : Nat :=
  ways n M (fun draw => fillLoop inc full draw n 0 out sites) x

theorem drawsOf_cons {n M : Nat} (a : Fin M) (v : Fin n → Fin M) :
    (fun i => drawsOf (Fin.cons a v : Fin (n + 1) → Fin M) (i + 1)) = drawsOf v := by
  funext i m
  unfold drawsOf
  by_cases h : i < n
  · rw [dif_pos (by omega : i + 1 < n + 1), dif_pos h]
    have : (⟨i + 1, by omega⟩ : Fin (n + 1)) = Fin.succ ⟨i, h⟩ := rfl
    rw [this, Fin.cons_succ]
  · rw [dif_neg (by omega), dif_neg h]

theorem loopWays_zero (M : Nat) (inc : Int) (full : Int → Bool) (out : List Int) (sites : List Nat) (x : List Int) :
    loopWays M inc full 0 out sites x = if out = x then 1 else 0 := by
  unfold loopWays ways
  rw [Finset.univ_unique, Finset.sum_singleton]
  simp only [fillLoop, Except.ok.injEq]

/-- first draw, then the rest. -/
theorem loopWays_succ (M : Nat) (inc : Int) (full : Int → Bool) (n : Nat) (out : List Int) (sites : List Nat) (x : List Int)
    (hs : sites ≠ []) (hd : sites.length ∣ M) (hsite : ∀ i ∈ sites, i < out.length) :
    loopWays M inc full (n + 1) out sites x =
      (M / sites.length) * ∑ s ∈ Finset.range sites.length,
        loopWays M inc full n (out.set (sites.getD s 0) (out.getD (sites.getD s 0) 0 + inc))
          (if full (out.getD (sites.getD s 0) 0 + inc) then sites.eraseIdx s else sites) x := by
  have hpos : 0 < sites.length := List.length_pos_iff.2 hs
  obtain ⟨q, hq⟩ := hd
  have hMq : M / sites.length = q := by rw [hq]; exact Nat.mul_div_cancel_left q hpos
  rw [hMq]
  unfold loopWays ways
  rw [← (Fin.consEquiv fun _ : Fin (n + 1) => Fin M).sum_comp, Fintype.sum_prod_type]
  have key : ∀ a : Fin M, ∀ v : Fin n → Fin M,
      fillLoop inc full (drawsOf (Fin.cons a v : Fin (n + 1) → Fin M)) (n + 1) 0 out sites =
      fillLoop inc full (drawsOf v) n 0
        (out.set (sites.getD ((a : Nat) % sites.length) 0) (out.getD (sites.getD ((a : Nat) % sites.length) 0) 0 + inc))
        (if full (out.getD (sites.getD ((a : Nat) % sites.length) 0) 0 + inc) then sites.eraseIdx ((a : Nat) % sites.length) else sites) := by
    intro a v
    have hlt : (a : Nat) % sites.length < sites.length := Nat.mod_lt _ hpos
    have hdr : drawsOf (Fin.cons a v : Fin (n + 1) → Fin M) 0 sites.length = (a : Nat) % sites.length := by
      unfold drawsOf
      rw [dif_pos (by omega)]
      rfl
    have hmem : sites.getD ((a : Nat) % sites.length) 0 ∈ sites := by
      rw [List.getD_eq_getElem _ _ hlt]; exact List.getElem_mem _
    have h1 : sites[(a : Nat) % sites.length]? = some (sites.getD ((a : Nat) % sites.length) 0) := by
      rw [List.getD_eq_getElem _ _ hlt, List.getElem?_eq_getElem hlt]
    have h2 : out[sites.getD ((a : Nat) % sites.length) 0]? = some (out.getD (sites.getD ((a : Nat) % sites.length) 0) 0) := by
      rw [List.getElem?_eq_getElem (hsite _ hmem), List.getD_eq_getElem _ _ (hsite _ hmem)]
    rw [fillLoop]
    simp only [hdr, h1, h2, if_neg (by omega : ¬ sites.length = 0)]
    rw [fillLoop_shift inc full _ n 0 1, drawsOf_cons]
  have : ∀ a : Fin M, (∑ v : Fin n → Fin M,
      if (fillLoop inc full (drawsOf ((Fin.consEquiv fun _ : Fin (n + 1) => Fin M) (a, v))) (n + 1) 0 out sites) = .ok x then 1 else 0) =
      (fun s => ∑ v : Fin n → Fin M, if fillLoop inc full (drawsOf v) n 0
        (out.set (sites.getD s 0) (out.getD (sites.getD s 0) 0 + inc))
        (if full (out.getD (sites.getD s 0) 0 + inc) then sites.eraseIdx s else sites) = .ok x then 1 else 0) ((a : Nat) % sites.length) := by
    intro a
    refine Finset.sum_congr rfl fun v _ => ?_
    have e : (Fin.consEquiv fun _ : Fin (n + 1) => Fin M) (a, v) = (Fin.cons a v : Fin (n + 1) → Fin M) := rfl
    rw [e, key a v]
  rw [Finset.sum_congr rfl fun a _ => this a]
  rw [← sum_mod _ _ q hpos, ← hq]
  exact Fin.sum_univ_eq_sum_range (fun a => (fun s => ∑ v : Fin n → Fin M, if fillLoop inc full (drawsOf v) n 0
        (out.set (sites.getD s 0) (out.getD (sites.getD s 0) 0 + inc))
        (if full (out.getD (sites.getD s 0) 0 + inc) then sites.eraseIdx s else sites) = .ok x then 1 else 0) (a % sites.length)) M

/-- the loop never lowers an entry. -/
theorem fillLoop_mono (inc : Int) (hinc : 0 ≤ inc) (full : Int → Bool) (draw : Nat → Nat → Nat) (n k : Nat) (out : List Int) (sites : List Nat)
    (x : List Int) (h : fillLoop inc full draw n k out sites = .ok x) (i : Nat) : out.getD i 0 ≤ x.getD i 0 := by
  induction n generalizing k out sites with
  | zero => simp only [fillLoop, Except.ok.injEq] at h; rw [h]
  | succ n ih =>
    simp only [fillLoop] at h
    split at h
    · cases h
    · split at h
      · cases h
      · split at h
        · cases h
        · rename_i site _ _ v hv
          refine le_trans ?_ (ih _ _ _ h)
          obtain ⟨hlt, hv'⟩ := List.getElem?_eq_some_iff.1 hv
          by_cases hi : i = site
          · subst hi
            rw [List.getD_eq_getElem _ _ hlt, List.getD_eq_getElem _ _ (by simpa using hlt), List.getElem_set_self, hv']
            omega
          · simp only [List.getD_eq_getElem?_getD]
            rw [List.getElem?_set_ne (fun h => hi h.symm)]

theorem loopWays_eq_zero (M : Nat) (inc : Int) (hinc : 0 ≤ inc) (full : Int → Bool) (n : Nat) (out : List Int) (sites : List Nat)
    (x : List Int) (i : Nat) (h : x.getD i 0 < out.getD i 0) : loopWays M inc full n out sites x = 0 := by
  unfold loopWays ways
  refine Finset.sum_eq_zero fun u _ => ?_
  rw [if_neg]
  intro hx
  have := fillLoop_mono inc hinc full _ _ _ _ _ _ hx i
  omega

theorem getD_set (l : List Int) (s i : Nat) (v : Int) (hs : s < l.length) : (l.set s v).getD i 0 = if i = s then v else l.getD i 0 := by
  by_cases h : i = s
  · subst h
    rw [if_pos rfl, List.getD_eq_getElem _ _ (by simpa using hs), List.getElem_set_self]
  · rw [if_neg h]
    simp only [List.getD_eq_getElem?_getD]
    rw [List.getElem?_set_ne (fun h' => h h'.symm)]

/-- while nothing can be removed before the last draw, the counts are multinomial. -/
theorem loopWays_multinomial (M : Nat) (inc : Int) (hinc : 0 < inc) (full : Int → Bool) (top : Int) (hfull : ∀ v, v < top → full v = false)
    (N : Nat) (hN : 0 < N) (hd : N ∣ M) (n : Nat) (out x : List Int) (sites : List Nat) (hs : n = 0 ∨ sites = List.range N)
    (hout : out.length = N) (hxl : x.length = N) (hroom : ∀ i < N, out.getD i 0 + inc * n ≤ top)
    (c : Nat → Nat) (hx : ∀ i < N, x.getD i 0 = out.getD i 0 + inc * c i) (hc : ∑ i ∈ Finset.range N, c i = n) :
    loopWays M inc full n out sites x * ∏ i ∈ Finset.range N, (c i).factorial = n.factorial * (M / N) ^ n := by
  induction n generalizing out sites c with
  | zero =>
    have hc0 : ∀ i ∈ Finset.range N, c i = 0 := by
      simpa using hc
    rw [loopWays_zero, if_pos, Finset.prod_eq_one]
    · simp
    · intro i hi; rw [hc0 i hi]; rfl
    · refine List.ext_getElem (by omega) fun i h1 h2 => ?_
      have := hx i (by omega)
      rw [hc0 i (Finset.mem_range.2 (by omega)), List.getD_eq_getElem _ _ h1, List.getD_eq_getElem _ _ h2] at this
      simpa using this.symm
  | succ n ih =>
    rcases hs with hs | rfl
    · omega
    rw [loopWays_succ M inc full n out (List.range N) x (by simp; omega) (by simpa using hd) (by intro i hi; rw [hout]; exact List.mem_range.1 hi)]
    rw [List.length_range]
    have hterm : ∀ s ∈ Finset.range N,
        loopWays M inc full n (out.set ((List.range N).getD s 0) (out.getD ((List.range N).getD s 0) 0 + inc))
          (if full (out.getD ((List.range N).getD s 0) 0 + inc) then (List.range N).eraseIdx s else List.range N) x *
          ∏ i ∈ Finset.range N, (c i).factorial = c s * (n.factorial * (M / N) ^ n) := by
      intro s hs
      have hsN := Finset.mem_range.1 hs
      have hsd : (List.range N).getD s 0 = s := by
        rw [List.getD_eq_getElem _ _ (by simpa using hsN)]; simp
      rw [hsd]
      rcases Nat.eq_zero_or_pos (c s) with h0 | hpos
      · rw [loopWays_eq_zero M inc hinc.le full n _ _ x s, h0]
        · simp
        · rw [getD_set _ _ _ _ (by omega), if_pos rfl, hx s hsN, h0]
          simp; exact hinc
      · have hsum : ∑ i ∈ Finset.range N, (if i = s then c i - 1 else c i) = n := by
          have h1 := Finset.add_sum_erase (Finset.range N) c hs
          have h2 := Finset.add_sum_erase (Finset.range N) (fun i => if i = s then c i - 1 else c i) hs
          have h3 : ∑ i ∈ (Finset.range N).erase s, (if i = s then c i - 1 else c i) = ∑ i ∈ (Finset.range N).erase s, c i :=
            Finset.sum_congr rfl fun i hi => if_neg (Finset.ne_of_mem_erase hi)
          simp only [if_pos] at h2
          rw [h3] at h2
          omega
        have hprod : ∏ i ∈ Finset.range N, (c i).factorial =
            c s * ∏ i ∈ Finset.range N, (if i = s then c i - 1 else c i).factorial := by
          rw [← Finset.mul_prod_erase _ (fun i => (c i).factorial) hs,
            ← Finset.mul_prod_erase _ (fun i => (if i = s then c i - 1 else c i).factorial) hs]
          have h3 : ∏ i ∈ (Finset.range N).erase s, (if i = s then c i - 1 else c i).factorial = ∏ i ∈ (Finset.range N).erase s, (c i).factorial :=
            Finset.prod_congr rfl fun i hi => by rw [if_neg (Finset.ne_of_mem_erase hi)]
          rw [h3]
          simp only [if_pos]
          rw [← mul_assoc, Nat.mul_factorial_pred (by omega)]
        have hroom' : ∀ i < N, (out.set s (out.getD s 0 + inc)).getD i 0 + inc * n ≤ top := by
          intro i hi
          rw [getD_set _ _ _ _ (by omega)]
          have h1 := hroom i hi
          push_cast at h1
          split
          · rename_i h; subst h; linarith [mul_add inc (n : Int) 1]
          · nlinarith
        have := ih (out.set s (out.getD s 0 + inc)) (if full (out.getD s 0 + inc) then (List.range N).eraseIdx s else List.range N)
          (by
            rcases Nat.eq_zero_or_pos n with h | h
            · exact .inl h
            · right
              have h1 := hroom s hsN
              push_cast at h1
              rw [hfull (out.getD s 0 + inc) (by nlinarith)]
              rfl)
          (by simpa using hout) hroom' (fun i => if i = s then c i - 1 else c i)
          (by
            intro i hi
            rw [getD_set _ _ _ _ (by omega)]
            split
            · rename_i h; subst h; rw [hx i hi]; push_cast [Nat.cast_sub hpos]; ring
            · exact hx i hi)
          hsum
        rw [hprod, mul_left_comm, this]
    rw [mul_assoc, Finset.sum_mul, Finset.sum_congr rfl hterm, ← Finset.sum_mul, hc, Nat.factorial_succ, pow_succ]
    ring

/-- when every site is removed at once (at most one per site), all results are equally likely. -/
theorem loopWays_hardcore (M : Nat) (inc : Int) (hinc : 0 < inc) (full : Int → Bool) (lo : Int) (hfull : full (lo + inc) = true)
    (N : Nat) (n : Nat) (out x : List Int) (sites : List Nat) (hnd : sites.Nodup) (hsN : ∀ i ∈ sites, i < N ∧ out.getD i 0 = lo)
    (hd : ∀ m, 0 < m → m ≤ sites.length → m ∣ M) (hout : out.length = N) (hxl : x.length = N)
    (S : Finset Nat) (hS : ∀ i ∈ S, i ∈ sites) (hcard : S.card = n)
    (hx : ∀ i < N, x.getD i 0 = out.getD i 0 + if i ∈ S then inc else 0) :
    loopWays M inc full n out sites x = n.factorial * ∏ j ∈ Finset.range n, M / (sites.length - j) := by
  induction n generalizing out sites S with
  | zero =>
    have : S = ∅ := Finset.card_eq_zero.1 hcard
    subst this
    rw [loopWays_zero, if_pos]
    · simp
    · refine List.ext_getElem (by omega) fun i h1 h2 => ?_
      have := hx i (by omega)
      rw [List.getD_eq_getElem _ _ h1, List.getD_eq_getElem _ _ h2] at this
      simpa using this.symm
  | succ n ih =>
    have hne : sites ≠ [] := by
      rintro rfl
      have : S = ∅ := Finset.eq_empty_of_forall_notMem fun i hi => by simpa using hS i hi
      rw [this] at hcard
      simp at hcard
    have hpos : 0 < sites.length := List.length_pos_iff.2 hne
    rw [loopWays_succ M inc full n out sites x hne (hd _ hpos le_rfl) (by intro i hi; rw [hout]; exact (hsN i hi).1)]
    have hterm : ∀ s ∈ Finset.range sites.length,
        loopWays M inc full n (out.set (sites.getD s 0) (out.getD (sites.getD s 0) 0 + inc))
          (if full (out.getD (sites.getD s 0) 0 + inc) then sites.eraseIdx s else sites) x =
        if sites.getD s 0 ∈ S then n.factorial * ∏ j ∈ Finset.range n, M / (sites.length - 1 - j) else 0 := by
      intro s hs
      have hsl := Finset.mem_range.1 hs
      have hget : sites.getD s 0 = sites[s] := List.getD_eq_getElem _ _ hsl
      have hmem : sites.getD s 0 ∈ sites := by rw [hget]; exact List.getElem_mem _
      obtain ⟨h1, h2⟩ := hsN _ hmem
      have herase : ∀ j, j ∈ sites.eraseIdx s ↔ j ∈ sites ∧ j ≠ sites.getD s 0 := by
        intro j
        rw [hget, ← hnd.erase_getElem _ hsl, hnd.mem_erase_iff, and_comm]
      rw [h2, hfull, if_pos rfl]
      split
      · rename_i hin
        have := ih (out.set (sites.getD s 0) (lo + inc)) (sites.eraseIdx s) (hnd.eraseIdx _)
          (by
            intro i hi
            obtain ⟨k1, k2⟩ := (herase i).1 hi
            refine ⟨(hsN i k1).1, ?_⟩
            rw [getD_set _ _ _ _ (by omega), if_neg k2]
            exact (hsN i k1).2)
          (by
            intro m hm hle
            refine hd m hm ?_
            rw [List.length_eraseIdx_of_lt hsl] at hle
            omega)
          (by simpa using hout) (S.erase (sites.getD s 0))
          (by
            intro i hi
            obtain ⟨k1, k2⟩ := Finset.mem_erase.1 hi
            exact (herase i).2 ⟨hS i k2, k1⟩)
          (by rw [Finset.card_erase_of_mem hin, hcard]; rfl)
          (by
            intro i hi
            rw [getD_set _ _ _ _ (by omega)]
            by_cases hi' : i = sites.getD s 0
            · rw [if_pos hi', if_neg (by simp [hi']), hx i hi, hi', h2, if_pos hin]; simp
            · rw [if_neg hi', hx i hi]
              have : (i ∈ S.erase (sites.getD s 0)) ↔ i ∈ S := by rw [Finset.mem_erase]; exact ⟨fun h => h.2, fun h => ⟨hi', h⟩⟩
              simp only [this])
        rw [this, List.length_eraseIdx_of_lt hsl]
      · rename_i hnot
        refine loopWays_eq_zero M inc hinc.le full n _ _ x (sites.getD s 0) ?_
        rw [getD_set _ _ _ _ (by omega), if_pos rfl, hx _ h1, if_neg hnot, h2]
        omega
    rw [Finset.sum_congr rfl hterm, ← Finset.sum_filter, Finset.sum_const, smul_eq_mul]
    have hcount : ((Finset.range sites.length).filter fun s => sites.getD s 0 ∈ S).card = n + 1 := by
      rw [← hcard]
      refine Finset.card_bij (fun s _ => sites.getD s 0) ?_ ?_ ?_
      · intro s hs; exact (Finset.mem_filter.1 hs).2
      · intro a ha b hb hab
        have ha' := Finset.mem_range.1 (Finset.mem_filter.1 ha).1
        have hb' := Finset.mem_range.1 (Finset.mem_filter.1 hb).1
        rw [List.getD_eq_getElem _ _ ha', List.getD_eq_getElem _ _ hb'] at hab
        exact (List.Nodup.getElem_inj_iff hnd).1 hab
      · intro i hi
        obtain ⟨s, hs, hs'⟩ := List.mem_iff_getElem.1 (hS i hi)
        exact ⟨s, Finset.mem_filter.2 ⟨Finset.mem_range.2 hs, by rw [List.getD_eq_getElem _ _ hs, hs']; exact hi⟩,
          by rw [List.getD_eq_getElem _ _ hs, hs']⟩
    rw [hcount, Finset.prod_range_succ', Nat.factorial_succ, Nat.sub_zero]
    have : ∀ j, M / (sites.length - 1 - j) = M / (sites.length - (j + 1)) := by
      intro j; rw [show sites.length - 1 - j = sites.length - (j + 1) by omega]
    rw [Finset.prod_congr rfl fun j _ => this j]
    ring

end Verif.RandomBatch
