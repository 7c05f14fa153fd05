import Verif.Model.Flip
import Mathlib.Tactic.Ring
import Mathlib.Tactic.Linarith
import Mathlib.Tactic.FieldSimp
import Mathlib.Tactic.Positivity

/-! Property C06: `flip_state` changes exactly the requested site to another valid value. -/

namespace Verif.Flip

/-! ### Specification -/

/-- a local move: valid values go to other valid values, every other valid value is reachable. -/
structure LocalFlipOK (vals : List Int) (f : Draw → Int → Int) : Prop where
  valid : ∀ d : Draw, d.Valid → ∀ x ∈ vals, f d x ∈ vals ∧ f d x ≠ x
  reach : ∀ x ∈ vals, ∀ v ∈ vals, v ≠ x → ∃ d : Draw, d.Valid ∧ f d x = v

/-- `flip` on configurations with valid values `vals j` at site `j` (`vals.length` sites). -/
structure FlipOK (vals : List (List Int)) (flip : Draw → List Int → Int → List Int × Int) : Prop where
  move : ∀ d : Draw, d.Valid → ∀ σ : List Int, σ.length = vals.length →
    (∀ j (h : j < σ.length) (h' : j < vals.length), σ[j] ∈ vals[j]) →
    ∀ i (h : i < σ.length) (h' : i < vals.length), ∃ v, v ∈ vals[i] ∧ v ≠ σ[i] ∧
      flip d σ i = (σ.set i v, σ[i])
  reach : ∀ σ : List Int, σ.length = vals.length →
    (∀ j (h : j < σ.length) (h' : j < vals.length), σ[j] ∈ vals[j]) →
    ∀ i (h : i < σ.length) (h' : i < vals.length), ∀ v ∈ vals[i], v ≠ σ[i] →
      ∃ d : Draw, d.Valid ∧ flip d σ i = (σ.set i v, σ[i])

/-- the local values of `Spin(s)`, `t = 2 s`: `-t, -t+2, ..., t`. -/
def spinValues (t : Nat) : List Int := (List.range (t + 1)).map fun k : Nat => -(t : Int) + 2 * k

/-- the local values of `Fock(n_max)`. -/
def fockValues (n : Nat) : List Int := (List.range (n + 1)).map fun k : Nat => (k : Int)

/-! ### Local moves -/

theorem mem_spinValues {t : Nat} {x : Int} :
    x ∈ spinValues t ↔ ∃ k : Nat, k ≤ t ∧ x = -(t : Int) + 2 * k := by
  simp only [spinValues, List.mem_map, List.mem_range]
  constructor
  · rintro ⟨k, h, rfl⟩; exact ⟨k, by omega, rfl⟩
  · rintro ⟨k, h, rfl⟩; exact ⟨k, by omega, rfl⟩

theorem mem_fockValues {n : Nat} {x : Int} : x ∈ fockValues n ↔ 0 ≤ x ∧ x ≤ n := by
  simp only [fockValues, List.mem_map, List.mem_range]
  constructor
  · rintro ⟨k, h, rfl⟩; omega
  · rintro ⟨h, h'⟩; exact ⟨x.toNat, by omega, by omega⟩

theorem floor_range {u : ℚ} {m : Nat} (hm : 0 < m) (h0 : 0 ≤ u) (h1 : u < 1) :
    0 ≤ ⌊u * m⌋ ∧ ⌊u * m⌋ < (m : Int) := by
  constructor
  · exact Int.floor_nonneg.2 (by positivity)
  · rw [Int.floor_lt]
    have : (0 : ℚ) < m := by exact_mod_cast hm
    push_cast
    nlinarith

theorem floor_reach {m k : Nat} (hk : k < m) :
    ∃ d : Draw, d.Valid ∧ ⌊d.uniform * m⌋ = (k : Int) := by
  have hm : (0 : ℚ) < m := by exact_mod_cast (by omega : 0 < m)
  refine ⟨⟨k / m, fun _ => 0⟩, ⟨by positivity, ?_, fun m h => h⟩, ?_⟩
  · show (k : ℚ) / m < 1
    rw [div_lt_one hm]; exact_mod_cast hk
  · show ⌊(k : ℚ) / m * m⌋ = (k : Int)
    rw [div_mul_cancel₀ _ (ne_of_gt hm)]
    exact Int.floor_natCast k

/-- C06, Qubit. -/
theorem C06_qubit_local : LocalFlipOK [0, 1] qubitLocal := by
  refine ⟨?_, ?_⟩
  · intro d _ x hx
    simp only [List.mem_cons, List.not_mem_nil, or_false] at hx ⊢
    rcases hx with rfl | rfl <;> simp [qubitLocal]
  · intro x hx v hv hne
    refine ⟨⟨0, fun _ => 0⟩, ⟨by simp, by simp, fun m h => h⟩, ?_⟩
    simp only [List.mem_cons, List.not_mem_nil, or_false] at hx hv
    rcases hx with rfl | rfl <;> rcases hv with rfl | rfl <;> simp_all [qubitLocal]

/-- C06, Spin, every spin quantum number `s = t/2 ≥ 1/2`. -/
theorem C06_spin_local (t : Nat) (ht : 0 < t) : LocalFlipOK (spinValues t) (spinFlipLocal t) := by
  unfold spinFlipLocal
  by_cases h1 : t = 1
  · subst h1
    rw [if_pos rfl]
    refine ⟨?_, ?_⟩
    · intro d _ x hx
      simp only [mem_spinValues] at hx ⊢
      obtain ⟨k, hk, rfl⟩ := hx
      refine ⟨⟨1 - k, by omega, ?_⟩, ?_⟩ <;> simp only [spinHalfLocal] <;> omega
    · intro x hx v hv hne
      simp only [mem_spinValues] at hx hv
      refine ⟨⟨0, fun _ => 0⟩, ⟨by simp, by simp, fun m h => h⟩, ?_⟩
      obtain ⟨k, hk, rfl⟩ := hx
      obtain ⟨l, hl, rfl⟩ := hv
      simp only [spinHalfLocal]
      omega
  · rw [if_neg h1]
    refine ⟨?_, ?_⟩
    · intro d hd x hx
      have hf := floor_range ht hd.nonneg hd.lt_one
      simp only [mem_spinValues] at hx ⊢
      obtain ⟨k, hk, rfl⟩ := hx
      simp only [spinLocal]
      generalize ⌊d.uniform * t⌋ = z at hf
      split
      · exact ⟨⟨(z + 1).toNat, by omega, by omega⟩, by omega⟩
      · exact ⟨⟨z.toNat, by omega, by omega⟩, by omega⟩
    · intro x hx v hv hne
      simp only [mem_spinValues] at hx hv
      obtain ⟨k, hk, rfl⟩ := hx
      obtain ⟨l, hl, rfl⟩ := hv
      by_cases hlk : l < k
      · obtain ⟨d, hd, e⟩ := floor_reach (show l < t by omega)
        refine ⟨d, hd, ?_⟩
        simp only [spinLocal, e]
        split <;> omega
      · obtain ⟨d, hd, e⟩ := floor_reach (show l - 1 < t by omega)
        refine ⟨d, hd, ?_⟩
        simp only [spinLocal, e]
        split <;> omega

/-- C06, Fock with `n_max ≥ 1`. -/
theorem C06_fock_local (n : Nat) (hn : 0 < n) : LocalFlipOK (fockValues n) (fockLocal n) := by
  refine ⟨?_, ?_⟩
  · intro d hd x hx
    have hf := floor_range hn hd.nonneg hd.lt_one
    simp only [mem_fockValues] at hx ⊢
    simp only [fockLocal, if_neg (show n ≠ 0 by omega)]
    generalize ⌊d.uniform * n⌋ = z at hf
    split <;> omega
  · intro x hx v hv hne
    simp only [mem_fockValues] at hx hv
    by_cases hlk : v < x
    · obtain ⟨d, hd, e⟩ := floor_reach (show v.toNat < n by omega)
      refine ⟨d, hd, ?_⟩
      simp only [fockLocal, if_neg (show n ≠ 0 by omega), e]
      split <;> omega
    · obtain ⟨d, hd, e⟩ := floor_reach (show v.toNat - 1 < n by omega)
      refine ⟨d, hd, ?_⟩
      simp only [fockLocal, if_neg (show n ≠ 0 by omega), e]
      split <;> omega

theorem jaxGet_nat (x : List Int) (i : Nat) (h : i < x.length) : jaxGet x (i : Int) = x[i] := by
  have : jaxIdx x.length (i : Int) = i := by unfold jaxIdx; rw [if_neg (by omega)]; omega
  simp [jaxGet, this, h]

theorem jaxSet_nat (x : List Int) (i : Nat) (v : Int) (h : i < x.length) :
    jaxSet x (i : Int) v = x.set i v := by
  have h1 : ¬ ((i : Int) < 0) := by omega
  simp only [jaxSet, if_neg h1]
  rw [if_pos ⟨by omega, by omega⟩]
  rfl

/-- C06, CustomHilbert whose local states are listed in increasing order. -/
theorem C06_custom_local (ls : List Int) (hs : ls.Pairwise (· < ·)) (h2 : 2 ≤ ls.length) :
    LocalFlipOK ls (customLocal ls) := by
  have hmono : ∀ i j (hi : i < ls.length) (hj : j < ls.length), ls[i] < ls[j] ↔ i < j := by
    intro i j hi hj
    constructor
    · intro h
      by_contra hc
      rcases Nat.eq_or_lt_of_le (Nat.le_of_not_lt hc) with rfl | hlt
      · simp at h
      · have := List.pairwise_iff_getElem.1 hs j i hj hi hlt
        omega
    · intro h
      exact List.pairwise_iff_getElem.1 hs i j hi hj h
  have key : ∀ r k (hr : r < ls.length - 1) (hk : k < ls.length) (d : Draw),
      d.randint (ls.length - 1) = r → customLocal ls d ls[k] =
        if h : k ≤ r then ls[r + 1]'(by omega) else ls[r]'(by omega) := by
    intro r k hr hk d e
    simp only [customLocal, e, jaxGet_nat ls r (by omega)]
    by_cases hkr : k ≤ r
    · have : ls[r] ≥ ls[k] := by
        have := hmono r k (by omega) hk
        omega
      rw [if_pos this, dif_pos hkr]
      have := jaxGet_nat ls (r + 1) (by omega)
      push_cast at this
      exact this
    · have : ¬ ls[r] ≥ ls[k] := by
        have := hmono r k (by omega) hk
        omega
      rw [if_neg this, dif_neg hkr]
      simpa using jaxGet_nat ls r (by omega)
  refine ⟨?_, ?_⟩
  · intro d hd x hx
    obtain ⟨k, hk, rfl⟩ := List.mem_iff_getElem.1 hx
    have hr := hd.randint_lt (ls.length - 1) (by omega)
    rw [key _ k hr hk d rfl]
    split
    · refine ⟨List.getElem_mem _, ?_⟩
      have := hmono k (d.randint (ls.length - 1) + 1) hk (by omega)
      omega
    · refine ⟨List.getElem_mem _, ?_⟩
      have := hmono (d.randint (ls.length - 1)) k (by omega) hk
      omega
  · intro x hx v hv hne
    obtain ⟨k, hk, rfl⟩ := List.mem_iff_getElem.1 hx
    obtain ⟨l, hl, rfl⟩ := List.mem_iff_getElem.1 hv
    have hkl : k ≠ l := by rintro rfl; exact hne rfl
    let r := if l < k then l else l - 1
    have hr : r < ls.length - 1 := by simp only [r]; split <;> omega
    refine ⟨⟨0, fun m => if r < m then r else 0⟩, ⟨by simp, by simp, ?_⟩, ?_⟩
    · intro m hm
      simp only
      split <;> omega
    · rw [key r k hr hk _ (by simp [hr])]
      by_cases h : l < k
      · simp only [r, if_pos h]
        rw [dif_neg (by omega)]
      · simp only [r, if_neg h]
        rw [dif_pos (by omega)]
        congr 1
        omega

/-- C102 refuted for CustomHilbert with local states not in increasing order: with local states
    `[1, -1]` a site holding `-1` is "flipped" to `-1`. -/
theorem C102_custom_unsorted_refuted :
    ¬ ∀ ls : List Int, ls.Nodup → 2 ≤ ls.length → LocalFlipOK ls (customLocal ls) := by
  intro H
  have h := (H [1, -1] (by decide) (by decide)).valid ⟨0, fun _ => 0⟩
    ⟨by simp, by simp, fun m h => h⟩ (-1) (by decide)
  exact h.2 (by decide)

example : LocalFlipOK [-1232, 0, 132] (customLocal [-1232, 0, 132]) :=
  C06_custom_local _ (by decide) (by decide)
example : LocalFlipOK [-2, 0, 2] (spinFlipLocal 2) := C06_spin_local 2 (by decide)
example : LocalFlipOK [0, 1, 2, 3] (fockLocal 3) := C06_fock_local 3 (by decide)

/-! ### Spaces -/

/-- C06: homogeneous space of `N` sites, and also its doubled space (`2N` sites) when unconstrained. -/
theorem C06_homogeneous_flip (vals : List Int) (f : Draw → Int → Int) (hf : LocalFlipOK vals f)
    (N : Nat) : FlipOK (List.replicate N vals) (flipAt f) := by
  have e : ∀ d (σ : List Int) i (h : i < σ.length),
      flipAt f d σ i = (σ.set i (f d σ[i]), σ[i]) := by
    intro d σ i h
    simp only [flipAt, jaxGet_nat σ i h, jaxSet_nat σ i _ h]
  constructor
  · intro d hd σ hl hσ i h h'
    have hx := hσ i h h'
    simp only [List.getElem_replicate] at hx ⊢
    obtain ⟨h1, h2⟩ := hf.valid d hd σ[i] hx
    exact ⟨_, h1, h2, e d σ i h⟩
  · intro σ hl hσ i h h' v hv hne
    have hx := hσ i h h'
    simp only [List.getElem_replicate] at hx hv
    obtain ⟨d, hd, hdv⟩ := hf.reach σ[i] hx v hv hne
    exact ⟨d, hd, by rw [e d σ i h, hdv]⟩

/-- C06: doubled homogeneous space through the fallback (constrained physical space): the negative
    index wraps to the right site. -/
theorem C06_doubled_homogeneous_flip (vals : List Int) (f : Draw → Int → Int)
    (hf : LocalFlipOK vals f) (N : Nat) :
    FlipOK (List.replicate (2 * N) vals) (doubledFallback (flipAt f) N) := by
  have e : ∀ d (σ : List Int) (i : Nat), σ.length = 2 * N → i < σ.length →
      doubledFallback (flipAt f) N d σ i = flipAt f d σ i := by
    intro d σ i hl h
    unfold doubledFallback
    split
    · rfl
    · rename_i hN
      have h1 : (i : Int) - (2 * N : Nat) < 0 := by omega
      have h2 : ¬ ((i : Int) < 0) := by omega
      have g1 : jaxGet σ ((i : Int) - (2 * N : Nat)) = jaxGet σ i := by
        unfold jaxGet jaxIdx
        rw [if_pos h1, if_neg h2, hl]
        congr 3
        omega
      have g2 : ∀ v, jaxSet σ ((i : Int) - (2 * N : Nat)) v = jaxSet σ i v := by
        intro v
        unfold jaxSet
        simp only [if_pos h1, if_neg h2, hl]
        rw [show (i : Int) - (2 * N : Nat) + (2 * N : Nat) = i by omega]
      simp only [flipAt, g1, g2]
  have base := C06_homogeneous_flip vals f hf (2 * N)
  constructor
  · intro d hd σ hl hσ i h h'
    rw [e d σ i (by simpa using hl) h]
    exact base.move d hd σ hl hσ i h h'
  · intro σ hl hσ i h h' v hv hne
    obtain ⟨d, hd, h3⟩ := base.reach σ hl hσ i h h' v hv hne
    exact ⟨d, hd, by rw [e d σ i (by simpa using hl) h, h3]⟩

theorem hilbertI_get (hs : List Factor) (k i : Nat) (hi : i < (hs.map Factor.size).sum) :
    ∃ j, (hilbertI hs k)[i]? = some (k + j) ∧ ∃ h, hs[j]? = some h ∧
      cumIndex hs j ≤ i ∧ i < cumIndex hs j + h.size := by
  induction hs generalizing k i with
  | nil => simp at hi
  | cons h hs ih =>
    simp only [hilbertI]
    by_cases hlt : i < h.size
    · refine ⟨0, ?_, h, rfl, by simp [cumIndex], by simpa [cumIndex] using hlt⟩
      rw [List.getElem?_append_left (by simpa using hlt)]
      simp [hlt]
    · simp only [List.map_cons, List.sum_cons] at hi
      obtain ⟨j, h1, g, h2, h3, h4⟩ := ih (k + 1) (i - h.size) (by omega)
      have hc : cumIndex (h :: hs) (j + 1) = h.size + cumIndex hs j := by simp [cumIndex]
      refine ⟨j + 1, ?_, g, by simpa using h2, by omega, by omega⟩
      rw [List.getElem?_append_right (by simpa using Nat.le_of_not_lt hlt)]
      simp only [List.length_replicate]
      rw [h1]
      congr 1
      omega

theorem hilbertI_length (hs : List Factor) (k : Nat) :
    (hilbertI hs k).length = (hs.map Factor.size).sum := by
  induction hs generalizing k with
  | nil => rfl
  | cons h hs ih => simp [hilbertI, ih]

/-- what a tensor flip does at site `i` of a state at least as long as the product. -/
theorem tensorFlip_eq (hs : List Factor) (d : Draw) (σ : List Int) (i : Nat)
    (hl : (hs.map Factor.size).sum ≤ σ.length) (hi : i < (hs.map Factor.size).sum) :
    ∃ j h, hs[j]? = some h ∧ cumIndex hs j ≤ i ∧ i < cumIndex hs j + h.size ∧
      tensorFlip hs d σ i = (σ.set i (h.flip d (σ[i]'(by omega))), σ[i]'(by omega)) := by
  obtain ⟨j, h1, h, h2, h3, h4⟩ := hilbertI_get hs 0 i hi
  refine ⟨j, h, h2, h3, h4, ?_⟩
  have hlen := hilbertI_length hs 0
  have hmin : min i ((hilbertI hs 0).length - 1) = i := by omega
  simp only [Nat.zero_add] at h1
  have hsum : cumIndex hs j + h.size ≤ (hs.map Factor.size).sum := by
    have hj : j < hs.length := (List.getElem?_eq_some_iff.1 h2).1
    have : cumIndex hs (j + 1) = cumIndex hs j + h.size := by
      unfold cumIndex
      rw [List.take_add_one, h2]
      simp
    rw [← this]
    unfold cumIndex
    conv_rhs => rw [← List.take_append_drop (j + 1) hs, List.map_append, List.sum_append]
    omega
  simp only [tensorFlip, Int.toNat_natCast, hmin, h1, tensorBranch, h2]
  generalize cumIndex hs j = a at h3 h4 hsum
  have hsublen : ((σ.drop a).take h.size).length = h.size := by
    simp; omega
  have e1 : ((i : Int) - (a : Int)) = ((i - a : Nat) : Int) := by omega
  have hget : ((σ.drop a).take h.size)[i - a]'(by omega) = σ[i]'(by omega) := by
    simp only [List.getElem_take, List.getElem_drop]
    congr 1; omega
  rw [e1]
  simp only [flipAt, jaxGet_nat _ _ (show i - a < ((σ.drop a).take h.size).length by omega),
    jaxSet_nat _ _ _ (show i - a < ((σ.drop a).take h.size).length by omega), hget]
  congr 1
  -- write back the slice
  apply List.ext_getElem?
  intro n
  rw [List.getElem?_set]
  by_cases hn1 : n < a
  · rw [List.append_assoc, List.getElem?_append_left (by simp; omega), List.getElem?_take_of_lt hn1,
      if_neg (by omega)]
  · rw [List.append_assoc, List.getElem?_append_right (by simp; omega)]
    have hta : (List.take a σ).length = a := by simp; omega
    rw [hta]
    by_cases hn2 : n < a + h.size
    · rw [List.getElem?_append_left (by rw [List.length_set, hsublen]; omega), List.getElem?_set,
        hsublen]
      by_cases hni : i = n
      · subst hni
        rw [if_pos rfl, if_pos (by omega), if_pos rfl, if_pos (by omega)]
      · rw [if_neg (by omega), if_neg hni, List.getElem?_take_of_lt (by omega), List.getElem?_drop]
        congr 1; omega
    · rw [List.getElem?_append_right (by rw [List.length_set, hsublen]; omega), List.length_set,
        hsublen, List.getElem?_drop, if_neg (by omega)]
      congr 1; omega

/-- valid values of every site of a product of homogeneous factors. -/
def tensorValues (fs : List (Factor × List Int)) : List (List Int) :=
  (fs.map fun p => List.replicate p.1.size p.2).flatten

theorem tensorValues_get (fs : List (Factor × List Int)) (j i : Nat) (p : Factor × List Int)
    (hp : fs[j]? = some p) (h1 : cumIndex (fs.map Prod.fst) j ≤ i)
    (h2 : i < cumIndex (fs.map Prod.fst) j + p.1.size) :
    (tensorValues fs)[i]? = some p.2 := by
  induction fs generalizing j i with
  | nil => simp at hp
  | cons q fs ih =>
    cases j with
    | zero =>
      simp at hp
      subst hp
      simp only [cumIndex, List.take_zero, List.map_nil, List.sum_nil, Nat.zero_add] at h2
      simp only [tensorValues, List.map_cons, List.flatten_cons]
      rw [List.getElem?_append_left (by simpa using h2)]
      simp [h2]
    | succ j =>
      have hc : cumIndex ((q :: fs).map Prod.fst) (j + 1) = q.1.size + cumIndex (fs.map Prod.fst) j := by
        simp [cumIndex]
      rw [hc] at h1 h2
      simp only [tensorValues, List.map_cons, List.flatten_cons]
      rw [List.getElem?_append_right (by simp; omega), List.length_replicate]
      exact ih j (i - q.1.size) (by simpa using hp) (by omega) (by omega)

theorem tensorValues_length (fs : List (Factor × List Int)) :
    (tensorValues fs).length = ((fs.map Prod.fst).map Factor.size).sum := by
  induction fs with
  | nil => rfl
  | cons q fs ih =>
    simp only [tensorValues] at ih
    simp [tensorValues, ih]

/-- C06: TensorHilbert of homogeneous factors, any number and any kinds. -/
theorem C06_tensor_flip (fs : List (Factor × List Int))
    (hf : ∀ p ∈ fs, LocalFlipOK p.2 p.1.flip) :
    FlipOK (tensorValues fs) (tensorFlip (fs.map Prod.fst)) := by
  have hlen := tensorValues_length fs
  have site : ∀ d (σ : List Int), σ.length = (tensorValues fs).length → ∀ i (h : i < σ.length)
      (h' : i < (tensorValues fs).length), ∃ p ∈ fs, (tensorValues fs)[i] = p.2 ∧
        tensorFlip (fs.map Prod.fst) d σ i = (σ.set i (p.1.flip d σ[i]), σ[i]) := by
    intro d σ hl i h h'
    obtain ⟨j, g, h2, h3, h4, h5⟩ := tensorFlip_eq (fs.map Prod.fst) d σ i (by omega) (by omega)
    rw [List.getElem?_map] at h2
    obtain ⟨p, hp, rfl⟩ := Option.map_eq_some_iff.1 h2
    refine ⟨p, List.mem_of_getElem? hp, ?_, h5⟩
    have := tensorValues_get fs j i p hp h3 h4
    rw [List.getElem?_eq_getElem h'] at this
    exact Option.some.inj this
  constructor
  · intro d hd σ hl hσ i h h'
    obtain ⟨p, hp, e1, e2⟩ := site d σ hl i h h'
    have hx := hσ i h h'
    rw [e1] at hx ⊢
    obtain ⟨v1, v2⟩ := (hf p hp).valid d hd _ hx
    exact ⟨_, v1, v2, e2⟩
  · intro σ hl hσ i h h' v hv hne
    obtain ⟨p, hp, e1, _⟩ := site ⟨0, fun _ => 0⟩ σ hl i h h'
    have hx := hσ i h h'
    rw [e1] at hx hv
    -- the factor does not depend on the draw
    obtain ⟨j, g, h2, h3, h4, _⟩ := tensorFlip_eq (fs.map Prod.fst) ⟨0, fun _ => 0⟩ σ i (by omega) (by omega)
    rw [List.getElem?_map] at h2
    obtain ⟨q, hq, rfl⟩ := Option.map_eq_some_iff.1 h2
    have hq' := tensorValues_get fs j i q hq h3 h4
    rw [List.getElem?_eq_getElem h'] at hq'
    have hq2 : p.2 = q.2 := by rw [← e1]; exact Option.some.inj hq'
    rw [hq2] at hx hv
    obtain ⟨d, hd, hdv⟩ := (hf q (List.mem_of_getElem? hq)).reach _ hx v hv hne
    refine ⟨d, hd, ?_⟩
    obtain ⟨j', g', a2, a3, a4, a5⟩ := tensorFlip_eq (fs.map Prod.fst) d σ i (by omega) (by omega)
    rw [List.getElem?_map] at a2
    obtain ⟨q', hq', rfl⟩ := Option.map_eq_some_iff.1 a2
    have hjj : j' = j := by
      -- the site determines the factor
      by_contra hne'
      have mono : ∀ a b, a < b → ∀ r, fs[a]? = some r →
          cumIndex (fs.map Prod.fst) a + r.1.size ≤ cumIndex (fs.map Prod.fst) b := by
        intro a b hab r hr
        have h1 : cumIndex (fs.map Prod.fst) (a + 1) = cumIndex (fs.map Prod.fst) a + r.1.size := by
          unfold cumIndex
          rw [List.take_add_one, List.getElem?_map, hr]
          simp
        rw [← h1]
        unfold cumIndex
        obtain ⟨c, rfl⟩ := Nat.exists_eq_add_of_le (show a + 1 ≤ b from hab)
        rw [List.take_add (i := a + 1), List.map_append, List.sum_append]
        omega
      rcases Nat.lt_or_gt_of_ne hne' with hlt | hlt
      · have := mono _ _ hlt _ hq'; omega
      · have := mono _ _ hlt _ hq; omega
    subst hjj
    rw [hq] at hq'
    obtain rfl := Option.some.inj hq'
    rw [a5, hdv]

example : FlipOK [[-1, 1], [-1, 1], [0, 1, 2]]
    (tensorFlip [⟨spinFlipLocal 1, 2⟩, ⟨fockLocal 2, 1⟩]) := by
  refine C06_tensor_flip [(⟨spinFlipLocal 1, 2⟩, [-1, 1]), (⟨fockLocal 2, 1⟩, [0, 1, 2])] ?_
  intro p hp
  simp only [List.mem_cons, List.not_mem_nil, or_false] at hp
  rcases hp with rfl | rfl
  · exact C06_spin_local 1 (by decide)
  · exact C06_fock_local 2 (by decide)

/-- C102 refuted for the doubled space of a product: flipping the fourth site (second half, a boson)
    of `Doubled(Spin(1/2) * Fock(2))` reports the value of another site. -/
theorem C102_doubled_tensor_refuted :
    ¬ ∀ (fs : List (Factor × List Int)), (∀ p ∈ fs, LocalFlipOK p.2 p.1.flip) →
      FlipOK (tensorValues fs ++ tensorValues fs)
        (doubledFallback (tensorFlip (fs.map Prod.fst)) (tensorValues fs).length) := by
  intro H
  have hfl := H [(⟨spinFlipLocal 1, 1⟩, [-1, 1]), (⟨fockLocal 2, 1⟩, [0, 1, 2])] (by
    intro p hp
    simp only [List.mem_cons, List.not_mem_nil, or_false] at hp
    rcases hp with rfl | rfl
    · exact C06_spin_local 1 (by decide)
    · exact C06_fock_local 2 (by decide))
  obtain ⟨v, _, _, h3⟩ := hfl.move ⟨0, fun _ => 0⟩ ⟨by simp, by simp, fun m h => h⟩ [-1, 0, 1, 2] rfl
    (by decide) 3 (by decide) (by decide)
  have h4 := congrArg Prod.snd h3
  change _ = (2 : Int) at h4
  clear h3
  revert h4
  clear * -
  decide +kernel

end Verif.Flip
