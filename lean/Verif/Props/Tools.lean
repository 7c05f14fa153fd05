import Verif.Model.Tools
import Mathlib.Data.Nat.Digits.Lemmas
import Mathlib.Algebra.BigOperators.Fin
import Mathlib.Algebra.BigOperators.Ring.Finset
import Mathlib.Algebra.Order.BigOperators.Group.Finset
import Mathlib.Tactic.Ring
import Mathlib.Tactic.Linarith
import Mathlib.Tactic.IntervalCases

/-! C240, C241: the diagnostic tools. -/

set_option linter.unusedVariables false

namespace Verif.Tools

open Verif.Hilbert (Err)

/-! ### words -/

/-- specification: `l` are the words of the text, the maximal pieces without white space. -/
inductive Words : Str → List Str → Prop
  | nil : Words [] []
  | space (c : Char) (s : Str) (l : List Str) : isWs c = true → Words s l → Words (c :: s) l
  | last (w : Str) : w ≠ [] → (∀ c ∈ w, isWs c = false) → Words w [w]
  | word (w : Str) (c : Char) (s : Str) (l : List Str) : w ≠ [] → (∀ c ∈ w, isWs c = false) → isWs c = true → Words s l →
      Words (w ++ c :: s) (w :: l)

theorem wordsAux_append (cur w s : Str) (h : ∀ c ∈ w, isWs c = false) : wordsAux cur (w ++ s) = wordsAux (cur ++ w) s := by
  induction w generalizing cur with
  | nil => simp
  | cons c t ih =>
    rw [List.cons_append, wordsAux, if_neg (by simp [h c (by simp)]), ih _ (fun d hd => h d (by simp [hd]))]
    simp

theorem words_of_Words {s : Str} {l : List Str} (h : Words s l) : words s = l := by
  unfold words
  induction h with
  | nil => rfl
  | space c s l hc _ ih => rw [wordsAux, if_pos hc, if_pos rfl, ih]
  | last w hw hn =>
    have := wordsAux_append [] w [] hn
    rw [List.append_nil] at this
    rw [this, wordsAux, if_neg (by simpa using hw), List.nil_append]
  | word w c s l hw hn hc _ ih =>
    rw [wordsAux_append [] w _ hn, List.nil_append, wordsAux, if_pos hc, if_neg hw, ih]

theorem Words_exists (cur s : Str) (hcur : ∀ c ∈ cur, isWs c = false) : Words (cur ++ s) (wordsAux cur s) := by
  induction s generalizing cur with
  | nil =>
    rw [wordsAux]
    by_cases h : cur = []
    · rw [if_pos h, h]; exact Words.nil
    · rw [if_neg h, List.append_nil]; exact Words.last cur h hcur
  | cons c t ih =>
    rw [wordsAux]
    by_cases hc : isWs c = true
    · rw [if_pos hc]
      by_cases h : cur = []
      · rw [if_pos h, h]
        exact Words.space c t _ hc (by simpa using ih [] (by simp))
      · rw [if_neg h]
        exact Words.word cur c t _ h hcur hc (by simpa using ih [] (by simp))
    · rw [if_neg hc]
      have := ih (cur ++ [c]) (by
        intro d hd
        rcases List.mem_append.1 hd with hd | hd
        · exact hcur d hd
        · rw [List.mem_singleton] at hd
          rw [hd]; simpa using hc)
      simpa using this

/-- white space are the blank and the control characters from tabulator to carriage return. -/
theorem C240_white (c : Char) : isWs c = true ↔ c.toNat = 32 ∨ 9 ≤ c.toNat ∧ c.toNat ≤ 13 := by
  have key : ∀ d : Char, (c == d) = true ↔ c.toNat = d.toNat := by
    intro d
    rw [beq_iff_eq]
    exact ⟨fun h => by rw [h], fun h => Char.toNat_inj.1 h⟩
  unfold isWs
  simp only [Bool.or_eq_true, key]
  have h1 : (' ').toNat = 32 := rfl
  have h2 : ('\t').toNat = 9 := rfl
  have h3 : ('\n').toNat = 10 := rfl
  have h4 : ('\r').toNat = 13 := rfl
  have h5 : (Char.ofNat 11).toNat = 11 := rfl
  have h6 : (Char.ofNat 12).toNat = 12 := rfl
  omega

/-- **C240**: the words of a text are its maximal pieces without white space, and there is only one such list. -/
theorem C240_words (s : Str) (l : List Str) : words s = l ↔ Words s l := by
  constructor
  · rintro rfl
    simpa [words] using Words_exists [] s (by simp)
  · exact words_of_Words

/-! ### strip -/

theorem dropWhile_pad (a s : Str) (ha : ∀ c ∈ a, isWs c = true) : (a ++ s).dropWhile isWs = s.dropWhile isWs := by
  induction a with
  | nil => rfl
  | cons c t ih => rw [List.cons_append, List.dropWhile_cons, if_pos (ha c (by simp)), ih fun d hd => ha d (by simp [hd])]

theorem dropWhile_head (c : Char) (s : Str) (h : isWs c = false) : (c :: s).dropWhile isWs = c :: s := by
  rw [List.dropWhile_cons, if_neg (by simp [h])]

/-- specification: no white space at either end. -/
def Trimmed (s : Str) : Prop := (∀ c ∈ s.head?, isWs c = false) ∧ ∀ c ∈ s.getLast?, isWs c = false

theorem trimmed_dropWhile {s : Str} (h : Trimmed s) : s.dropWhile isWs = s := by
  cases s with
  | nil => rfl
  | cons c t => exact dropWhile_head c t (h.1 c (by simp))

theorem rstrip_pad (s b : Str) (h : Trimmed s) (hb : ∀ c ∈ b, isWs c = true) :
    ((s ++ b).reverse.dropWhile isWs).reverse = s := by
  rw [List.reverse_append, dropWhile_pad _ _ (by simpa using hb)]
  have : s.reverse.dropWhile isWs = s.reverse := by
    cases hr : s.reverse with
    | nil => rfl
    | cons c t =>
      apply dropWhile_head
      apply h.2
      rw [List.getLast?_eq_head?_reverse, hr]
      simp
  rw [this, List.reverse_reverse]

/-- **C240**: `strip` removes the white space at both ends, and nothing else. -/
theorem C240_strip (a s b : Str) (ha : ∀ c ∈ a, isWs c = true) (hb : ∀ c ∈ b, isWs c = true) (h : Trimmed s) :
    strip (a ++ s ++ b) = s := by
  unfold strip
  rw [List.append_assoc, dropWhile_pad _ _ ha]
  cases hs : s with
  | nil =>
    have : ([] ++ b : Str).dropWhile isWs = [] := by
      have := dropWhile_pad b [] hb
      simpa using this
    rw [this]
    rfl
  | cons c t =>
    rw [List.cons_append, dropWhile_head c _ (h.1 c (by simp [hs])), ← List.cons_append, ← hs]
    exact rstrip_pad s b h hb

/-- every text has such a decomposition. -/
theorem strip_spec (x : Str) : ∃ a b, x = a ++ strip x ++ b ∧ (∀ c ∈ a, isWs c = true) ∧ (∀ c ∈ b, isWs c = true) ∧ Trimmed (strip x) := by
  have h1 : ∀ y : Str, ∃ a, y = a ++ y.dropWhile isWs ∧ ∀ c ∈ a, isWs c = true := by
    intro y
    refine ⟨y.takeWhile isWs, (List.takeWhile_append_dropWhile).symm, fun c hc => ?_⟩
    have := List.all_takeWhile (p := isWs) (l := y)
    rw [List.all_eq_true] at this
    exact this c hc
  have h0 : ∀ y : Str, ∀ c ∈ (y.dropWhile isWs).head?, isWs c = false := by
    intro y c hc
    induction y with
    | nil => simp at hc
    | cons d t ih =>
      rw [List.dropWhile_cons] at hc
      by_cases hd : isWs d = true
      · rw [if_pos hd] at hc; exact ih hc
      · rw [if_neg hd] at hc
        simp at hc
        rw [← hc]; simpa using hd
  obtain ⟨a, ha, ha'⟩ := h1 x
  obtain ⟨b, hb, hb'⟩ := h1 (x.dropWhile isWs).reverse
  have hb2 : x.dropWhile isWs = strip x ++ b.reverse := by
    have := congrArg List.reverse hb
    rw [List.reverse_reverse, List.reverse_append] at this
    exact this
  refine ⟨a, b.reverse, ?_, ha', by simpa using hb', ?_, ?_⟩
  · rw [List.append_assoc, ← hb2]; exact ha
  · intro c hc
    apply h0 x c
    rw [hb2]
    cases hs : strip x with
    | nil => rw [hs] at hc; simp at hc
    | cons d t => rw [hs] at hc; simpa using hc
  · intro c hc
    apply h0 (x.dropWhile isWs).reverse c
    have : strip x = ((x.dropWhile isWs).reverse.dropWhile isWs).reverse := rfl
    rw [this, List.getLast?_reverse] at hc
    exact hc

/-! ### number of CPUs -/

theorem searchMask_skip (b : Bool) (l rest : Str) (hl : '\n' ∉ l) (hp : b = true → "Cpus_allowed:".toList.isPrefixOf (l ++ '\n' :: rest) = false) :
    searchMask b (l ++ '\n' :: rest) = searchMask true rest := by
  induction l generalizing b with
  | nil =>
    rw [List.nil_append, searchMask]
    cases b with
    | false => simp
    | true =>
      have := hp rfl
      rw [List.nil_append] at this
      rw [this]; simp
  | cons c t ih =>
    have hc : c ≠ '\n' := fun h => hl (by simp [h])
    rw [List.cons_append, searchMask]
    have h1 : (b && "Cpus_allowed:".toList.isPrefixOf (c :: (t ++ '\n' :: rest))) = false := by
      cases b with
      | false => rfl
      | true => simpa using hp rfl
    rw [h1, if_neg (by simp)]
    have : (c == '\n') = false := by simpa using hc
    rw [this]
    exact ih false (fun h => hl (by simp [h])) (by simp)

theorem prefix_line (p l rest : Str) (hp : '\n' ∉ p) (h : p.isPrefixOf l = false) : p.isPrefixOf (l ++ '\n' :: rest) = false := by
  induction p generalizing l with
  | nil => simp at h
  | cons c t ih =>
    cases l with
    | nil =>
      have : c ≠ '\n' := fun h => hp (by simp [h])
      simp [List.isPrefixOf, this]
    | cons d s =>
      rw [List.cons_append, List.isPrefixOf]
      rw [List.isPrefixOf] at h
      by_cases hcd : c == d
      · rw [hcd] at h ⊢
        rw [Bool.true_and] at h ⊢
        exact ih s (fun hm => hp (by simp [hm])) h
      · simp [hcd]

/-- the character of a hexadecimal digit. -/
def hexChar (d : Fin 16) : Char := "0123456789abcdef".toList[d.val]'(by have := d.isLt; simpa using this)

theorem hexDigit_hexChar (d : Fin 16) : hexDigit (hexChar d) = some d.val := by revert d; decide

theorem hexChar_ok (d : Fin 16) : hexChar d ≠ ',' ∧ isWs (hexChar d) = false ∧ hexChar d ≠ '\n' := by revert d; decide

/-- the mask as the kernel prints it: hexadecimal digits, most significant first, with commas at any places. -/
def maskText (ds : List (Option (Fin 16))) : Str := ds.map fun o => match o with | some d => hexChar d | none => ','

theorem maskText_filter (ds : List (Option (Fin 16))) : (maskText ds).filter (· != ',') = (ds.filterMap id).map hexChar := by
  induction ds with
  | nil => rfl
  | cons o t ih =>
    unfold maskText at ih ⊢
    rw [List.map_cons]
    cases o with
    | none => rw [List.filter_cons, if_neg (by simp), ih, List.filterMap_cons]; rfl
    | some d =>
      have := (hexChar_ok d).1
      rw [List.filter_cons, if_pos (by simpa using this), ih, List.filterMap_cons]
      rfl

theorem hexAux_eq (acc : Nat) (ds : List (Fin 16)) :
    hexAux acc (ds.map hexChar) = .ok (acc * 16 ^ ds.length + Nat.ofDigits 16 (ds.reverse.map Fin.val)) := by
  induction ds generalizing acc with
  | nil => simp [hexAux]
  | cons d t ih =>
    rw [List.map_cons, hexAux, hexDigit_hexChar]
    dsimp only
    rw [ih]
    congr 1
    rw [List.reverse_cons, List.map_append, Nat.ofDigits_append]
    simp only [List.length_cons, List.length_map, List.length_reverse, List.map_cons, List.map_nil, Nat.ofDigits_singleton, pow_succ]
    ring

theorem popcount (S : Finset ℕ) : (Nat.digits 2 (∑ i ∈ S, 2 ^ i)).count 1 = S.card := by
  have key : ∀ (k : ℕ) (T : Finset ℕ), (∀ i ∈ T, i < k) → (Nat.digits 2 (∑ i ∈ T, 2 ^ i)).count 1 = T.card := by
    intro k
    induction k with
    | zero =>
      intro T hT
      have : T = ∅ := Finset.eq_empty_of_forall_notMem fun i hi => by have := hT i hi; omega
      simp [this]
    | succ k ih =>
      intro T hT
      -- split off the lowest bit
      set U := (T.erase 0).image (fun i => i - 1) with hU
      have hinj : Set.InjOn (fun i => i - 1) (T.erase 0 : Finset ℕ) := by
        intro a ha b hb hab
        simp at ha hb hab
        omega
      have hcard : U.card = (T.erase 0).card := Finset.card_image_of_injOn hinj
      have hsum : ∑ i ∈ T.erase 0, 2 ^ i = 2 * ∑ i ∈ U, 2 ^ i := by
        rw [hU, Finset.sum_image hinj, Finset.mul_sum]
        apply Finset.sum_congr rfl
        intro i hi
        have : i ≠ 0 := (Finset.mem_erase.1 hi).1
        obtain ⟨j, rfl⟩ := Nat.exists_eq_succ_of_ne_zero this
        simp [pow_succ]
        ring
      have hUk : ∀ i ∈ U, i < k := by
        intro i hi
        rw [hU, Finset.mem_image] at hi
        obtain ⟨j, hj, rfl⟩ := hi
        have h1 := hT j (Finset.mem_of_mem_erase hj)
        have h2 : j ≠ 0 := (Finset.mem_erase.1 hj).1
        omega
      have hrec := ih U hUk
      by_cases h0 : 0 ∈ T
      · have hs : ∑ i ∈ T, 2 ^ i = 1 + 2 * ∑ i ∈ U, 2 ^ i := by
          rw [← hsum, ← Finset.add_sum_erase T _ h0, pow_zero]
        rw [hs, Nat.digits_def' (by norm_num) (by omega)]
        have e1 : (1 + 2 * ∑ i ∈ U, 2 ^ i) % 2 = 1 := by omega
        have e2 : (1 + 2 * ∑ i ∈ U, 2 ^ i) / 2 = ∑ i ∈ U, 2 ^ i := by omega
        rw [e1, e2, List.count_cons_self, hrec, hcard, Finset.card_erase_add_one h0]
      · have hs : ∑ i ∈ T, 2 ^ i = 2 * ∑ i ∈ U, 2 ^ i := by
          rw [← hsum, Finset.erase_eq_of_notMem h0]
        rw [Finset.erase_eq_of_notMem h0] at hcard
        rw [hs, ← hcard, ← hrec]
        by_cases hz : ∑ i ∈ U, 2 ^ i = 0
        · rw [hz]
        · rw [Nat.digits_def' (by norm_num) (by omega)]
          have e1 : (2 * ∑ i ∈ U, 2 ^ i) % 2 = 0 := by omega
          have e2 : (2 * ∑ i ∈ U, 2 ^ i) / 2 = ∑ i ∈ U, 2 ^ i := by omega
          rw [e1, e2, List.count_cons_of_ne (by decide)]
  exact key (S.sup id + 1) S fun i hi => Nat.lt_succ_of_le (Finset.le_sup (f := id) hi)

theorem search_lines (before : List Str) (rest : Str)
    (hb : ∀ l ∈ before, '\n' ∉ l ∧ "Cpus_allowed:".toList.isPrefixOf l = false) :
    searchMask true ((before.map fun l => l ++ ['\n']).flatten ++ rest) = searchMask true rest := by
  induction before with
  | nil => rfl
  | cons l t ih =>
    have hl := hb l (by simp)
    rw [List.map_cons, List.flatten_cons, List.append_assoc, List.append_assoc, List.singleton_append,
      searchMask_skip true l _ hl.1 (fun _ => prefix_line _ _ _ (by decide) hl.2)]
    exact ih fun m hm => hb m (by simp [hm])

theorem takeWhile_mask (ds : List (Option (Fin 16))) (after : Str) (ha : after = [] ∨ ∃ t, after = '\n' :: t) :
    (maskText ds ++ after).takeWhile (· != '\n') = maskText ds := by
  induction ds with
  | nil =>
    rcases ha with rfl | ⟨t, rfl⟩
    · rfl
    · simp [maskText]
  | cons o t ih =>
    unfold maskText at ih ⊢
    rw [List.map_cons, List.cons_append, List.takeWhile_cons]
    cases o with
    | none => rw [if_pos (by decide), ih]
    | some d => rw [if_pos (by simpa using (hexChar_ok d).2.2), ih]

/-- **C240, number of CPUs**: if the status file lists, in a line after others, the mask of the set `S` of allowed CPUs, the answer is
    the number of elements of `S`, whatever follows and however the digits are grouped by commas; `None` if the set is empty. -/
theorem C240_cpus (S : Finset ℕ) (before : List Str) (hb : ∀ l ∈ before, '\n' ∉ l ∧ "Cpus_allowed:".toList.isPrefixOf l = false)
    (pad : Str) (hpad : ∀ c ∈ pad, isWs c = true) (ds : List (Option (Fin 16)))
    (hne : ds.filterMap id ≠ []) (hval : Nat.ofDigits 16 ((ds.filterMap id).reverse.map Fin.val) = ∑ i ∈ S, 2 ^ i)
    (after : Str) (ha : after = [] ∨ ∃ t, after = '\n' :: t) (n : Nat) :
    availableCpus true (some ((before.map fun l => l ++ ['\n']).flatten ++ ("Cpus_allowed:".toList ++ pad ++ maskText ds ++ after))) n
      = .ok (if S = ∅ then none else some S.card) := by
  have hs : searchMask true ("Cpus_allowed:".toList ++ pad ++ maskText ds ++ after) = some (maskText ds) := by
    have e : "Cpus_allowed:".toList ++ pad ++ maskText ds ++ after = 'C' :: ("pus_allowed:".toList ++ pad ++ maskText ds ++ after) := rfl
    rw [e, searchMask, ← e]
    have hpre : "Cpus_allowed:".toList.isPrefixOf ("Cpus_allowed:".toList ++ pad ++ maskText ds ++ after) = true := by
      rw [List.isPrefixOf_iff_prefix, List.append_assoc, List.append_assoc]
      exact List.prefix_append _ _
    rw [hpre, Bool.true_and, if_pos rfl]
    have hd : ("Cpus_allowed:".toList ++ pad ++ maskText ds ++ after).drop 13 = pad ++ (maskText ds ++ after) := by
      rw [List.append_assoc, List.append_assoc]
      exact List.drop_left' rfl
    rw [hd, dropWhile_pad _ _ hpad]
    have hdw : (maskText ds ++ after).dropWhile isWs = maskText ds ++ after := by
      cases ds with
      | nil => simp at hne
      | cons o t =>
        unfold maskText
        rw [List.map_cons, List.cons_append]
        apply dropWhile_head
        cases o with
        | none => decide
        | some d => exact (hexChar_ok d).2.1
    rw [hdw, takeWhile_mask ds after ha]
  unfold availableCpus
  rw [if_pos rfl]
  dsimp only
  rw [search_lines before _ hb, hs]
  dsimp only
  rw [maskText_filter, parseHex, if_neg (by simpa using hne), hexAux_eq, hval]
  dsimp only
  rw [Nat.zero_mul, Nat.zero_add, popcount]
  by_cases h : S = ∅
  · rw [if_neg (by simp [h]), if_pos h]
  · rw [if_pos (Finset.card_pos.2 (Finset.nonempty_iff_ne_empty.2 h)), if_neg h]

/-- on other systems multiprocessing is asked. -/
theorem C240_cpus_other (status : Option Str) (n : Nat) : availableCpus false status n = .ok (some n) := rfl

/-! ### `/proc/cpuinfo` -/

/-- specification: the name under which a line of `/proc/cpuinfo` is stored. -/
def stored (k : Str) : Str :=
  if k = "vendor_id".toList then "vendor".toList
  else if k = "model".toList then "model_display".toList
  else if k = "family".toList then "family_display".toList
  else if k = "model name".toList then "brand".toList else k

theorem translate_cons (a b : Str) (t : List (Str × Str)) (k : Str) :
    translate ((a, b) :: t) k = if k = a then b else translate t k := by
  unfold translate
  by_cases h : k = a
  · rw [if_pos h, List.find?_cons_of_pos (by simpa using h.symm)]; rfl
  · rw [if_neg h, List.find?_cons_of_neg (by simpa using Ne.symm h)]

theorem translate_proc (k : Str) : translate procKeys k = stored k := by
  unfold procKeys stored
  rw [translate_cons, translate_cons, translate_cons, translate_cons]
  rfl

theorem Info.put_eq (i : Info) (k : Str) (v : Val) : i.put k v k = some v := if_pos rfl

theorem Info.put_ne (i : Info) (k : Str) (v : Val) (q : Str) (h : q ≠ k) : i.put k v q = i q := if_neg h

/-- a line of `/proc/cpuinfo`: a name, white space, a colon, white space, a value, white space. -/
structure Row where
  key : Str
  pad1 : Str
  pad2 : Str
  val : Str
  pad3 : Str

/-- the text of the line. -/
def Row.text (r : Row) : Str := r.key ++ r.pad1 ++ ':' :: (r.pad2 ++ r.val ++ r.pad3)

/-- names and values are trimmed, names have no colon. -/
structure Row.Good (r : Row) : Prop where
  key_ne : r.key ≠ []
  key_trim : Trimmed r.key
  key_colon : ':' ∉ r.key
  val_trim : Trimmed r.val
  p1 : ∀ c ∈ r.pad1, isWs c = true
  p2 : ∀ c ∈ r.pad2, isWs c = true
  p3 : ∀ c ∈ r.pad3, isWs c = true

theorem cut_colon (x y : Str) (h : ':' ∉ x) : cut [':'] (x ++ ':' :: y) = some (x, y) := by
  induction x with
  | nil => rw [List.nil_append, cut, if_pos (by simp [List.isPrefixOf])]; rfl
  | cons c t ih =>
    have hc : ':' ≠ c := fun h' => h (by rw [← h']; simp)
    rw [List.cons_append, cut, if_neg (by simp [List.isPrefixOf, hc]), ih fun h' => h (by simp [h'])]
    rfl

theorem pad_colon {p : Str} (h : ∀ c ∈ p, isWs c = true) : ':' ∉ p := fun hm => by
  have := h ':' hm
  revert this
  decide

theorem strip_row (r : Row) (h : r.Good) : ∃ y, strip r.text = r.key ++ r.pad1 ++ ':' :: y ∧ strip y = r.val := by
  obtain ⟨d, t, hk⟩ : ∃ d t, r.key = d :: t := List.exists_cons_of_ne_nil h.key_ne
  have hd : isWs d = false := h.key_trim.1 d (by simp [hk])
  have hkey : ∀ c ∈ (r.key ++ r.pad1 ++ ':' :: r.pad2 ++ r.val).head?, isWs c = false := by
    intro c hc
    rw [hk] at hc
    simp at hc
    rw [← hc]; exact hd
  by_cases hv : r.val = []
  · refine ⟨[], ?_, by rw [hv]; rfl⟩
    have := C240_strip [] (r.key ++ r.pad1 ++ [':']) (r.pad2 ++ r.pad3) (by simp) (by
      intro c hc
      rcases List.mem_append.1 hc with hc | hc
      · exact h.p2 c hc
      · exact h.p3 c hc) ⟨by
        intro c hc
        rw [hk] at hc
        simp at hc
        rw [← hc]; exact hd, by
        intro c hc
        rw [List.getLast?_concat] at hc
        simp at hc
        rw [← hc]; decide⟩
    rw [← this]
    congr 1
    unfold Row.text
    rw [hv]
    simp
  · refine ⟨r.pad2 ++ r.val, ?_, ?_⟩
    · have := C240_strip [] (r.key ++ r.pad1 ++ ':' :: (r.pad2 ++ r.val)) r.pad3 (by simp) h.p3 ⟨by
        intro c hc
        rw [hk] at hc
        simp at hc
        rw [← hc]; exact hd, by
        intro c hc
        apply h.val_trim.2 c
        have e : r.key ++ r.pad1 ++ ':' :: (r.pad2 ++ r.val) = (r.key ++ r.pad1 ++ ':' :: r.pad2) ++ r.val := by simp
        rw [e, List.getLast?_append] at hc
        cases hl : r.val.getLast? with
        | none => exact absurd (List.getLast?_eq_none_iff.1 hl) hv
        | some z => rw [hl] at hc; exact hc⟩
      rw [← this]
      congr 1
      unfold Row.text
      simp
    · have := C240_strip r.pad2 r.val [] h.p2 (by simp) h.val_trim
      rwa [List.append_nil] at this

theorem procLoop_rows (num : Str → Option Int) (i : Info) (rows : List Row) (hr : ∀ r ∈ rows, r.Good) (rest : List Str) :
    procLoop num i (rows.map Row.text ++ rest)
      = procLoop num (rows.foldl (fun i r => i.put (stored r.key) (toVal num r.val)) i) rest := by
  induction rows generalizing i with
  | nil => rfl
  | cons r t ih =>
    have hg := hr r (by simp)
    obtain ⟨y, h1, h2⟩ := strip_row r hg
    have hne : strip r.text ≠ [] := by rw [h1]; simp
    rw [List.map_cons, List.cons_append, procLoop, if_neg hne, h1, cut_colon _ _ (by
      intro hm
      rcases List.mem_append.1 hm with hm | hm
      · exact hg.key_colon hm
      · exact pad_colon hg.p1 hm)]
    dsimp only
    have h3 : strip (r.key ++ r.pad1) = r.key := by
      have := C240_strip [] r.key r.pad1 (by simp) hg.p1 hg.key_trim
      simpa using this
    rw [h3, h2, translate_proc, ih _ fun q hq => hr q (by simp [hq])]
    rfl

theorem fold_put (num : Str → Option Int) (i : Info) (rows : List Row) (q : Str) :
    rows.foldl (fun i r => i.put (stored r.key) (toVal num r.val)) i q
      = (((rows.reverse.find? fun r => stored r.key = q).map fun r => toVal num r.val) <|> i q) := by
  induction rows generalizing i with
  | nil => simp
  | cons r t ih =>
    rw [List.foldl_cons, ih, List.reverse_cons, List.find?_append]
    cases hf : t.reverse.find? fun r => stored r.key = q with
    | some z => rfl
    | none =>
      by_cases h : stored r.key = q
      · simp [Info.put, h]
      · simp [Info.put, h, Ne.symm h]

/-- **C240, `/proc/cpuinfo`**: the first block of lines `name : value`, ended by an empty line or the end of the file, gives the values
    of the last line of each name (under its translated name, numbers as integers); what follows does not matter. The flags are the
    words of the line `flags`, with `sse3` added for `pni`; AVX and AVX2 are reported exactly when they are among them. -/
theorem C240_cpuinfo (num : Str → Option Int) (lower : Str → Str) (sysctl : Str) (rows : List Row) (hr : ∀ r ∈ rows, r.Good)
    (rest : List Str) (hrest : rest = [] ∨ ∃ b t, rest = b :: t ∧ ∀ c ∈ b, isWs c = true)
    (r : Row) (hf : rows.reverse.find? (fun r => stored r.key = "flags".toList) = some r) (hnum : num r.val = none)
    (flags : List Str) (hw : Words r.val flags) :
    ∃ i, cpuInfo num lower .linux sysctl (rows.map Row.text ++ rest) = .ok i ∧
      (∀ q, q ≠ "flags".toList → q ≠ "unknown_flags".toList → q ≠ "supports_avx".toList → q ≠ "supports_avx2".toList →
        i q = (rows.reverse.find? fun r => stored r.key = q).map fun r => toVal num r.val) ∧
      i "flags".toList = some (.list (if "pni".toList ∈ flags then flags ++ ["sse3".toList] else flags)) ∧
      (i "supports_avx".toList = some (.bool true) ↔ "avx".toList ∈ flags) ∧
      (i "supports_avx2".toList = some (.bool true) ↔ "avx2".toList ∈ flags) := by
  have hwd := words_of_Words hw
  have hloop : procLoop num (fun _ => none) (rows.map Row.text ++ rest)
      = .ok (rows.foldl (fun i r => i.put (stored r.key) (toVal num r.val)) fun _ => none) := by
    rw [procLoop_rows num _ rows hr]
    rcases hrest with rfl | ⟨b, t, rfl, hb⟩
    · rfl
    · have : strip b = [] := by
        have := C240_strip b [] [] hb (by simp) ⟨by simp, by simp⟩
        simpa using this
      rw [procLoop, if_pos this]
  have hfl : (rows.foldl (fun (i : Info) r => i.put (stored r.key) (toVal num r.val)) fun _ => none) "flags".toList = some (.str r.val) := by
    rw [fold_put, hf]
    simp [toVal, hnum]
  have hmem : ∀ w : Str, w ≠ "sse3".toList →
      (w ∈ (if "pni".toList ∈ flags then flags ++ ["sse3".toList] else flags) ↔ w ∈ flags) := by
    intro w hw'
    by_cases hp : "pni".toList ∈ flags
    · rw [if_pos hp, List.mem_append, List.mem_singleton]
      exact ⟨fun h => h.resolve_right hw', Or.inl⟩
    · rw [if_neg hp]
  unfold cpuInfo procCpuinfo
  dsimp only
  rw [hloop]
  dsimp only
  rw [hfl]
  dsimp only
  rw [hwd]
  refine ⟨_, rfl, ?_, ?_, ?_, ?_⟩
  · intro q h1 h2 h3 h4
    rw [Info.put_ne _ _ _ _ h4, Info.put_ne _ _ _ _ h3, Info.put_ne _ _ _ _ h2, Info.put_ne _ _ _ _ h1, fold_put]
    simp
  · rw [Info.put_ne _ _ _ _ (by decide), Info.put_ne _ _ _ _ (by decide), Info.put_ne _ _ _ _ (by decide), Info.put_eq]
  · rw [Info.put_ne _ _ _ _ (by decide), Info.put_eq, Option.some_inj, Val.bool.injEq, decide_eq_true_iff, hmem _ (by decide)]
  · rw [Info.put_eq, Option.some_inj, Val.bool.injEq, decide_eq_true_iff, hmem _ (by decide)]

/-! ### compilers of MPI -/

/-- **C240**: the link flags are the words of the command, separated by commas or white space, which begin with `-L`, in order. -/
theorem C240_link_flags (s : Str) (l : List Str) (h : Words (s.map fun c => if c = ',' then ' ' else c) l) (f : Str) :
    (f ∈ linkFlags s ↔ f ∈ l ∧ ∃ t, f = '-' :: 'L' :: t) ∧ (linkFlags s).Sublist l := by
  unfold linkFlags
  rw [words_of_Words h]
  refine ⟨?_, List.filter_sublist⟩
  rw [List.mem_filter, List.isPrefixOf_iff_prefix]
  refine and_congr Iff.rfl ⟨?_, ?_⟩
  · rintro ⟨t, ht⟩
    exact ⟨t, ht.symm⟩
  · rintro ⟨t, rfl⟩
    exact ⟨t, rfl⟩

/-- **C240**: `get_global_mpi_info` reports the paths found, empty texts for the commands that are not there, and the link flags of
    the compiler found; it fails only if the compiler was found and cannot be asked. -/
theorem C240_mpi (which showCmd : Str → Option Str) :
    (globalMpiInfo which showCmd = none ↔ ∃ p, which "mpicc".toList = some p ∧ strip p ≠ [] ∧ showCmd (strip p) = none) ∧
    ∀ i, globalMpiInfo which showCmd = some i →
      i.mpicc = ((which "mpicc".toList).map strip).getD [] ∧ i.mpirun = ((which "mpirun".toList).map strip).getD [] ∧
      i.mpiexec = ((which "mpiexec".toList).map strip).getD [] ∧
      ∀ l, i.linkFlags = some l ↔ ∃ p s, which "mpicc".toList = some p ∧ strip p ≠ [] ∧ showCmd (strip p) = some s ∧ l = linkFlags (strip s) := by
  unfold globalMpiInfo execInTerminal
  dsimp only
  obtain hw | ⟨p, hw⟩ : which "mpicc".toList = none ∨ ∃ p, which "mpicc".toList = some p := by
    cases which "mpicc".toList with
    | none => exact Or.inl rfl
    | some p => exact Or.inr ⟨p, rfl⟩
  · simp only [hw, Option.map_none, Option.getD_none]
    rw [if_neg (by simp)]
    refine ⟨by simp, ?_⟩
    intro i hi
    injection hi with hi
    subst hi
    refine ⟨rfl, rfl, rfl, fun l => ?_⟩
    simp
  · simp only [hw, Option.map_some, Option.getD_some]
    by_cases hp : strip p = []
    · rw [if_neg (by simpa using hp)]
      refine ⟨by simp [hp], ?_⟩
      intro i hi
      injection hi with hi
      subst hi
      refine ⟨rfl, rfl, rfl, fun l => ?_⟩
      simp [hp]
    · rw [if_pos hp]
      cases hs : showCmd (strip p) with
      | none =>
        refine ⟨⟨fun _ => ⟨p, rfl, hp, hs⟩, fun _ => rfl⟩, ?_⟩
        intro i hi
        simp at hi
      | some s =>
        refine ⟨⟨fun h => by simp at h, ?_⟩, ?_⟩
        · rintro ⟨q, hq, _, hn⟩
          injection hq with hq
          subst hq
          rw [hs] at hn
          cases hn
        · intro i hi
          simp only [Option.map_some, Option.some_inj] at hi
          subst hi
          refine ⟨rfl, rfl, rfl, fun l => ⟨?_, ?_⟩⟩
          · intro h
            injection h with h
            exact ⟨p, s, rfl, hp, hs, h.symm⟩
          · rintro ⟨q, t, hq, _, ht, rfl⟩
            injection hq with hq
            subst hq
            rw [hs] at ht
            injection ht with ht
            subst ht
            rfl

/-! ### printing -/

/-- **C240, columns**: whatever the indentation, a name that fits is followed by its value after ` : ` in column 20, and the line
    begins with the spaces, the dash and the name. -/
theorem C240_columns (key v : Str) (indent : Nat) (h : key.length + (if indent = 0 then 0 else 2 * indent + 2) ≤ 20) :
    ∃ line, printfmt key (some v) indent [] 20 = .ok line ∧ line.drop 20 = ' ' :: ':' :: ' ' :: v ∧
      (if indent = 0 then key else List.replicate (2 * indent) ' ' ++ '-' :: ' ' :: key) <+: line.take 20 ∧
      ∀ c ∈ (line.take 20).drop ((if indent = 0 then 0 else 2 * indent + 2) + key.length), c = ' ' := by
  have hlen : ∀ w, key.length ≤ w → (ljust w key).length = w := by
    intro w hw
    unfold ljust
    rw [List.length_append, List.length_replicate]
    omega
  have hfill : ∀ w, ∀ c ∈ (ljust w key).drop key.length, c = ' ' := by
    intro w c hc
    unfold ljust at hc
    rw [List.drop_left' rfl] at hc
    exact (List.mem_replicate.1 hc).2
  by_cases hi : indent = 0
  · subst hi
    rw [if_pos rfl] at h
    rw [if_pos rfl, if_pos rfl]
    have hl := hlen 20 (by omega)
    refine ⟨ljust 20 key ++ " : ".toList ++ v, rfl, ?_, ?_, ?_⟩
    · rw [List.append_assoc, List.drop_left' hl]; rfl
    · rw [List.append_assoc, List.take_left' hl]; exact List.prefix_append _ _
    · rw [List.append_assoc, List.take_left' hl, Nat.zero_add]; exact hfill 20
  · rw [if_neg hi] at h
    rw [if_neg hi, if_neg hi]
    have hl := hlen (20 - (2 * indent + 2)) (by omega)
    set P : Str := List.replicate (2 * indent) ' ' ++ ['-', ' '] with hP
    have hPl : P.length = 2 * indent + 2 := by simp [hP]
    have htot : (P ++ ljust (20 - (2 * indent + 2)) key).length = 20 := by
      rw [List.length_append, hPl, hl]; omega
    refine ⟨P ++ ljust (20 - (2 * indent + 2)) key ++ " : ".toList ++ v, ?_, ?_, ?_, ?_⟩
    · unfold printfmt
      have hpos : indent > 0 := Nat.pos_of_ne_zero hi
      have ha : ¬ ((20 : Int) - ((indent * 2 : Nat) + 2) < 0) := by omega
      have hb : ((20 : Int) - ((indent * 2 : Nat) + 2)).toNat = 20 - (2 * indent + 2) := by omega
      simp only [if_pos hpos]
      rw [if_neg ha, hb]
      have : ([] : Str) ++ ljust (indent * 2) [] ++ "- ".toList = P := by
        rw [hP, ljust, Nat.mul_comm]; rfl
      rw [this]
    · rw [List.append_assoc, List.drop_left' htot]; rfl
    · rw [List.append_assoc, List.take_left' htot]
      refine ⟨List.replicate (20 - (2 * indent + 2) - key.length) ' ', ?_⟩
      rw [hP, ljust]
      simp
    · rw [List.append_assoc, List.take_left' htot]
      intro c hc
      rw [List.drop_append, List.drop_of_length_le (by omega), List.nil_append, hPl] at hc
      have : 2 * indent + 2 + key.length - (2 * indent + 2) = key.length := by omega
      rw [this] at hc
      exact hfill _ c hc

/-- **C240**: the rows of `check_mpi` are printed by rank 0 only, and their values begin in the same column. -/
theorem C240_check_mpi (rank : Nat) (rows : List (Str × Str)) :
    (rank ≠ 0 → checkMpi rank rows = []) ∧
    (rank = 0 → (checkMpi rank rows).length = rows.length ∧ ∃ w, ∀ i (h : i < rows.length), ∃ line, (checkMpi rank rows)[i]? = some line ∧
      rows[i].1 <+: line.take w ∧ (∀ c ∈ (line.take w).drop rows[i].1.length, c = ' ') ∧ line.drop w = ' ' :: ':' :: ' ' :: rows[i].2) := by
  have hmax : ∀ (l : List Nat) (a : Nat), a ≤ l.foldl max a ∧ ∀ n ∈ l, n ≤ l.foldl max a := by
    intro l
    induction l with
    | nil => intro a; simp
    | cons b t ih =>
      intro a
      rw [List.foldl_cons]
      have := ih (max a b)
      refine ⟨le_trans (le_max_left _ _) this.1, ?_⟩
      intro n hn
      rcases List.mem_cons.1 hn with rfl | hn
      · exact le_trans (le_max_right _ _) this.1
      · exact this.2 n hn
  constructor
  · intro h
    unfold checkMpi
    rw [if_pos (Nat.pos_of_ne_zero h)]
  · rintro rfl
    unfold checkMpi
    rw [if_neg (by omega)]
    dsimp only
    refine ⟨by simp, (rows.map fun r => r.1.length).foldl max 0, fun i h => ?_⟩
    set w := (rows.map fun r => r.1.length).foldl max 0 with hw
    have hle : rows[i].1.length ≤ w := (hmax _ 0).2 _ (List.mem_map.2 ⟨rows[i], List.getElem_mem h, rfl⟩)
    have hl : (ljust w rows[i].1).length = w := by
      unfold ljust
      rw [List.length_append, List.length_replicate]
      omega
    refine ⟨ljust w rows[i].1 ++ " : ".toList ++ rows[i].2, ?_, ?_, ?_, ?_⟩
    · rw [List.getElem?_map, List.getElem?_eq_getElem h]; rfl
    · rw [List.append_assoc, List.take_left' hl]; exact List.prefix_append _ _
    · rw [List.append_assoc, List.take_left' hl]
      intro c hc
      unfold ljust at hc
      rw [List.drop_left' rfl] at hc
      exact (List.mem_replicate.1 hc).2
    · rw [List.append_assoc, List.drop_left' hl]; rfl

/-- **C240**: the backends reported are those whose devices can be listed, in the order cpu, gpu, tpu. -/
theorem C240_backends (devices : Str → Bool) :
    (∀ b, b ∈ jaxBackends devices ↔ (b = "cpu".toList ∨ b = "gpu".toList ∨ b = "tpu".toList) ∧ devices b = true) ∧
    (jaxBackends devices).Sublist ["cpu".toList, "gpu".toList, "tpu".toList] := by
  have h : jaxBackends devices = ["cpu".toList, "gpu".toList, "tpu".toList].filter devices := by
    have gen : ∀ (l acc : List Str), l.foldl (fun acc b => if devices b then acc ++ [b] else acc) acc = acc ++ l.filter devices := by
      intro l
      induction l with
      | nil => intro acc; simp
      | cons b t ih =>
        intro acc
        rw [List.foldl_cons, ih, List.filter_cons]
        cases devices b <;> simp
    exact gen _ []
  rw [h]
  refine ⟨fun b => ?_, List.filter_sublist⟩
  rw [List.mem_filter]
  simp [or_assoc]

/-! ### `sysctl -a` -/

/-- the text made of lines, without a newline after the last. -/
def joinLines : List Str → Str
  | [] => []
  | [l] => l
  | l :: m :: t => l ++ '\n' :: joinLines (m :: t)

theorem linesAux_append (cur l r : Str) (h : '\n' ∉ l) : linesAux cur (l ++ r) = linesAux (cur ++ l) r := by
  induction l generalizing cur with
  | nil => simp
  | cons c t ih =>
    have hc : c ≠ '\n' := fun h' => h (by simp [h'])
    rw [List.cons_append, linesAux, if_neg hc, ih _ fun h' => h (by simp [h'])]
    simp

theorem lines_join (ls : List Str) (hn : ∀ l ∈ ls, '\n' ∉ l) (hlast : ∀ l ∈ ls.getLast?, l ≠ []) : lines (joinLines ls) = ls := by
  unfold lines
  induction ls with
  | nil => rfl
  | cons l t ih =>
    cases t with
    | nil =>
      have := linesAux_append [] l [] (hn l (by simp))
      rw [List.append_nil] at this
      rw [joinLines, this, linesAux, List.nil_append, if_neg (hlast l (by simp))]
    | cons m t =>
      rw [joinLines, linesAux_append [] l _ (hn l (by simp)), linesAux, if_pos rfl, List.nil_append,
        ih (fun x hx => hn x (by simp [hx])) (fun x hx => hlast x (by simpa using hx))]

/-- a line of the output of `sysctl -a`: one of the processor, `machdep.cpu.name: value`, or another. -/
inductive SLine where
  | cpu (name value : Str)
  | other (text : Str)

/-- the text of the line. -/
def SLine.text : SLine → Str
  | .cpu n v => "machdep.cpu.".toList ++ (n ++ (':' :: ' ' :: v))
  | .other t => t

/-- names have no colon, values are trimmed and not empty. -/
def SLine.Good : SLine → Prop
  | .cpu n v => ':' ∉ n ∧ v ≠ [] ∧ Trimmed v
  | .other t => "machdep.cpu.".toList.isPrefixOf t = false

/-- the name and value of the lines of the processor. -/
def SLine.entry : SLine → Option (Str × Str)
  | .cpu n v => some (n, v)
  | .other _ => none

/-- specification: the name under which a line is stored. -/
def storedMac (k : Str) : Str :=
  if k = "model".toList then "model_display".toList
  else if k = "family".toList then "family_display".toList
  else if k = "extmodel".toList then "extended_model".toList
  else if k = "extfamily".toList then "extended_family".toList else k

/-- specification: the name of a flag. -/
def flagMac (f : Str) : Str :=
  if f = "sse4.1".toList then "sse4_1".toList else if f = "sse4.2".toList then "sse4_2".toList else f

theorem translate_mac (k : Str) : translate sysctlKeys k = storedMac k := by
  unfold sysctlKeys storedMac
  rw [translate_cons, translate_cons, translate_cons, translate_cons]
  rfl

theorem translate_flag (k : Str) : translate sysctlFlags k = flagMac k := by
  unfold sysctlFlags flagMac
  rw [translate_cons, translate_cons]
  rfl

theorem cut_colon_space (x y : Str) (h : ':' ∉ x) : cut ": ".toList (x ++ ':' :: ' ' :: y) = some (x, y) := by
  have e : ": ".toList = [':', ' '] := by decide
  rw [e]
  induction x with
  | nil => rw [List.nil_append, cut, if_pos (by simp [List.isPrefixOf])]; rfl
  | cons c t ih =>
    have hc : ':' ≠ c := fun h' => h (by rw [← h']; simp)
    rw [List.cons_append, cut, if_neg (by simp [List.isPrefixOf, hc]), ih fun h' => h (by simp [h'])]
    rfl

theorem sysctlLoop_lines (num : Str → Option Int) (i : Info) (ls : List SLine) (hg : ∀ l ∈ ls, l.Good) :
    sysctlLoop num i (ls.map SLine.text)
      = .ok ((ls.filterMap SLine.entry).foldl (fun i e => i.put (storedMac e.1) (toVal num e.2)) i) := by
  induction ls generalizing i with
  | nil => rfl
  | cons l t ih =>
    have hl := hg l (by simp)
    have ht := fun j => ih j fun m hm => hg m (by simp [hm])
    cases l with
    | other s =>
      have hl' : "machdep.cpu.".toList.isPrefixOf s = false := hl
      have h1 : sysctlLoop num i (s :: t.map SLine.text) = sysctlLoop num i (t.map SLine.text) := by
        rw [sysctlLoop, hl']
        exact if_neg Bool.false_ne_true
      have h2 : (SLine.other s :: t).filterMap SLine.entry = t.filterMap SLine.entry := List.filterMap_cons_none rfl
      rw [h2, ← ht i, ← h1]
      rfl
    | cpu n v =>
      obtain ⟨h1, h2, h3⟩ : ':' ∉ n ∧ v ≠ [] ∧ Trimmed v := hl
      have hp : "machdep.cpu.".toList.isPrefixOf (SLine.cpu n v).text = true := by
        rw [List.isPrefixOf_iff_prefix]; exact List.prefix_append _ _
      have hs : strip (SLine.cpu n v).text = (SLine.cpu n v).text := by
        have := C240_strip [] (SLine.cpu n v).text [] (by simp) (by simp) ⟨by
          intro c hc
          have : (SLine.cpu n v).text.head? = some 'm' := rfl
          rw [this] at hc
          cases hc
          decide, by
          intro c hc
          apply h3.2 c
          have e : (SLine.cpu n v).text = ("machdep.cpu.".toList ++ n ++ [':', ' ']) ++ v := by
            unfold SLine.text
            dsimp only
            generalize "machdep.cpu.".toList = P
            rw [List.append_assoc, List.append_assoc]
            rfl
          rw [e, List.getLast?_append] at hc
          cases hv : v.getLast? with
          | none => exact absurd (List.getLast?_eq_none_iff.1 hv) h2
          | some z => rw [hv] at hc; exact hc⟩
        rw [List.nil_append, List.append_nil] at this
        exact this
      have hd : (SLine.cpu n v).text.drop 12 = n ++ ':' :: ' ' :: v := List.drop_left' rfl
      rw [List.map_cons, sysctlLoop, if_pos hp, hs, hd, cut_colon_space n v h1]
      dsimp only
      rw [translate_mac, ht]
      rfl

theorem fold_put_mac (num : Str → Option Int) (i : Info) (es : List (Str × Str)) (q : Str) :
    es.foldl (fun (i : Info) e => i.put (storedMac e.1) (toVal num e.2)) i q
      = (((es.reverse.find? fun e => storedMac e.1 = q).map fun e => toVal num e.2) <|> i q) := by
  induction es generalizing i with
  | nil => simp
  | cons r t ih =>
    rw [List.foldl_cons, ih, List.reverse_cons, List.find?_append]
    cases hf : t.reverse.find? fun e => storedMac e.1 = q with
    | some z => rfl
    | none =>
      by_cases h : storedMac r.1 = q
      · simp [Info.put, h]
      · simp [Info.put, h, Ne.symm h]

/-- **C240, `sysctl -a`**: on macOS the values of the lines `machdep.cpu.name: value` are stored under their translated names, the last of
    each name; the flags are the words of the line `features` in lower case, with `sse4.1` and `sse4.2` renamed. -/
theorem C240_sysctl (num : Str → Option Int) (lower : Str → Str) (cpuinfo : List Str) (ls : List SLine) (hg : ∀ l ∈ ls, l.Good)
    (hn : ∀ l ∈ ls, '\n' ∉ l.text) (hlast : ∀ l ∈ ls.getLast?, l.text ≠ []) (ht : Trimmed (joinLines (ls.map SLine.text)))
    (v : Str) (hf : (ls.filterMap SLine.entry).reverse.find? (fun e => storedMac e.1 = "features".toList) = some ("features".toList, v))
    (hnum : num v = none) (flags : List Str) (hw : Words v flags) :
    ∃ i, cpuInfo num lower .darwin (joinLines (ls.map SLine.text) ++ ['\n']) cpuinfo = .ok i ∧
      (∀ q, q ≠ "flags".toList → q ≠ "unknown_flags".toList → q ≠ "supports_avx".toList → q ≠ "supports_avx2".toList →
        i q = ((ls.filterMap SLine.entry).reverse.find? fun e => storedMac e.1 = q).map fun e => toVal num e.2) ∧
      i "flags".toList = some (.list (flags.map fun f => flagMac (lower f))) := by
  have hstrip : strip (joinLines (ls.map SLine.text) ++ ['\n']) = joinLines (ls.map SLine.text) := by
    have := C240_strip [] (joinLines (ls.map SLine.text)) ['\n'] (by simp) (by decide) ht
    rw [List.nil_append] at this
    exact this
  have hlines := lines_join (ls.map SLine.text) (by
    intro l hl
    obtain ⟨m, hm, rfl⟩ := List.mem_map.1 hl
    exact hn m hm) (by
    intro l hl
    rw [List.getLast?_map] at hl
    obtain ⟨m, hm, rfl⟩ := Option.mem_map.1 hl
    exact hlast m hm)
  have hfl : ((ls.filterMap SLine.entry).foldl (fun (i : Info) e => i.put (storedMac e.1) (toVal num e.2)) fun _ => none) "features".toList
      = some (.str v) := by
    rw [fold_put_mac, hf]
    simp [toVal, hnum]
  have hfun : (fun f => translate sysctlFlags (lower f)) = fun f => flagMac (lower f) := by
    funext f
    rw [translate_flag]
  unfold cpuInfo sysctlCpu
  dsimp only
  rw [hstrip, hlines, sysctlLoop_lines num _ ls hg]
  dsimp only
  rw [hfl]
  dsimp only
  rw [words_of_Words hw, hfun]
  refine ⟨_, rfl, ?_, ?_⟩
  · intro q h1 h2 h3 h4
    rw [Info.put_ne _ _ _ _ h4, Info.put_ne _ _ _ _ h3, Info.put_ne _ _ _ _ h2, Info.put_ne _ _ _ _ h1, fold_put_mac]
    simp
  · rw [Info.put_ne _ _ _ _ (by decide), Info.put_ne _ _ _ _ (by decide), Info.put_ne _ _ _ _ (by decide), Info.put_eq]

/-- **C240**: on other systems `cpu_info` raises `ValueError`. -/
theorem C240_unsupported (num : Str → Option Int) (lower : Str → Str) (sysctl : Str) (cpuinfo : List Str) :
    cpuInfo num lower .other sysctl cpuinfo = .error .valueError := rfl

/-- **C240**: what is reported for a library tells whether it can be imported, unless its version is the text `unavailable`, and is the
    version if there is one. -/
theorem C240_version (lib : Option (Option Str)) (h : ∀ v, lib = some (some v) → v ≠ "unavailable".toList) :
    (version lib = "unavailable".toList ↔ lib = none) ∧ ∀ v, lib = some (some v) → version lib = v := by
  cases lib with
  | none => exact ⟨⟨fun _ => rfl, fun _ => rfl⟩, fun v hv => by cases hv⟩
  | some o =>
    cases o with
    | none => exact ⟨⟨fun hv => absurd hv (by decide), fun hv => by cases hv⟩, fun v hv => by cases hv⟩
    | some w =>
      refine ⟨⟨fun hv => absurd hv (h w rfl), fun hv => by cases hv⟩, ?_⟩
      rintro v ⟨⟩
      rfl

/-! ### deviations -/

/-- **C241**: the number of CPUs is not always detected: without the line, `None` is returned. -/
theorem C241_none_refuted : ¬ ∀ (text : Str) (n : Nat), ∃ k, availableCpus true (some text) n = .ok (some k) := by
  intro h
  obtain ⟨k, hk⟩ := h [] 4
  have : availableCpus true (some []) 4 = .ok none := rfl
  rw [this] at hk
  injection hk with hk
  cases hk

/-- **C241**: `exec_in_terminal` documents to strip the last newline, and strips all white space at both ends. -/
theorem C241_strip_refuted : ¬ ∀ s : Str, (∀ c ∈ s.getLast?, c ≠ '\n') → execInTerminal (some (s ++ ['\n'])) = some s := by
  intro h
  have := h " a ".toList (by decide)
  revert this
  decide

/-- **C241**: it does return the output without its last newline if the rest has no white space at its ends. -/
theorem C241_strip_partial (s : Str) (h : Trimmed s) : execInTerminal (some (s ++ ['\n'])) = some s := by
  have := C240_strip [] s ['\n'] (by simp) (by decide) h
  unfold execInTerminal
  rw [Option.map_some]
  congr 1

/-- **C241**: processors whose `/proc/cpuinfo` has no line `flags` (ARM has `Features`) are not supported on Linux: `KeyError`. -/
theorem C241_flags_refuted : ¬ ∀ (num : Str → Option Int) (rows : List Row), (∀ r ∈ rows, r.Good) →
    ∃ i, procCpuinfo num (rows.map Row.text) = .ok i := by
  intro h
  obtain ⟨i, hi⟩ := h (fun _ => none) [] (by simp)
  have : procCpuinfo (fun _ => none) (([] : List Row).map Row.text) = .error .keyError := rfl
  rw [this] at hi
  cases hi

/-- **C241**: exactly the files without `flags` in their first block give `KeyError`, those whose flags are a number
    `AttributeError`. -/
theorem C241_flags_partial (num : Str → Option Int) (rows : List Row) (hr : ∀ r ∈ rows, r.Good) :
    (procCpuinfo num (rows.map Row.text) = .error .keyError ↔ ∀ r ∈ rows, stored r.key ≠ "flags".toList) ∧
    ((∃ i, procCpuinfo num (rows.map Row.text) = .ok i) ↔
      ∃ r, rows.reverse.find? (fun r => stored r.key = "flags".toList) = some r ∧ num r.val = none) := by
  have hloop := procLoop_rows num (fun _ => none) rows hr []
  rw [List.append_nil] at hloop
  have hl : procLoop num (fun _ => none) (rows.map Row.text)
      = .ok (rows.foldl (fun i r => i.put (stored r.key) (toVal num r.val)) fun _ => none) := hloop
  have hfl := fold_put num (fun _ => none) rows "flags".toList
  have hiff : rows.reverse.find? (fun r => stored r.key = "flags".toList) = none ↔ ∀ r ∈ rows, stored r.key ≠ "flags".toList := by
    rw [List.find?_eq_none]
    simp
  unfold procCpuinfo
  rw [hl]
  dsimp only
  rw [hfl]
  cases hf : rows.reverse.find? (fun r => stored r.key = "flags".toList) with
  | none =>
    refine ⟨⟨fun _ => hiff.1 hf, fun _ => rfl⟩, ⟨?_, ?_⟩⟩
    · rintro ⟨i, hi⟩
      simp at hi
    · rintro ⟨r, hr', _⟩
      cases hr'
  | some r =>
    have hnot : ¬ ∀ r ∈ rows, stored r.key ≠ "flags".toList := by
      intro h
      have := hiff.2 h
      rw [hf] at this
      cases this
    have hv : (((some r).map fun r : Row => toVal num r.val) <|> none) = some (toVal num r.val) := rfl
    rw [hv]
    cases hn : num r.val with
    | none =>
      have ht : toVal num r.val = .str r.val := by unfold toVal; rw [hn]
      rw [ht]
      refine ⟨⟨fun h => by simp at h, fun h => absurd h hnot⟩, ⟨fun _ => ⟨r, rfl, hn⟩, fun _ => ⟨_, rfl⟩⟩⟩
    | some z =>
      have ht : toVal num r.val = .int z := by unfold toVal; rw [hn]
      rw [ht]
      refine ⟨⟨fun h => by simp at h, fun h => absurd h hnot⟩, ⟨?_, ?_⟩⟩
      · rintro ⟨i, hi⟩
        simp at hi
      · rintro ⟨q, hq, hqn⟩
        injection hq with hq
        subst hq
        rw [hn] at hqn
        cases hqn

/-- the output of `sysctl -a` of a processor with AVX and AVX2. -/
def macText : Str := "machdep.cpu.features: FPU AVX1.0\nhw.optional.avx2_0: 1\nhw.optional.avx1_0: 1\n".toList

/-- **C241**: on macOS a processor that has AVX2 is reported not to have it, and AVX is missed in the last line of the output. -/
theorem C241_sysctl_refuted :
    (¬ ∀ (num : Str → Option Int) (lower : Str → Str) (out : Str) (i : Info), sysctlCpu num lower out = .ok i →
      "hw.optional.avx2_0: 1\n".toList <:+: out → i "supports_avx2".toList = some (.bool true)) ∧
    (¬ ∀ (num : Str → Option Int) (lower : Str → Str) (out : Str) (i : Info), sysctlCpu num lower out = .ok i →
      "hw.optional.avx1_0: 1\n".toList <:+: out → i "supports_avx".toList = some (.bool true)) := by
  have hex : ∃ i, sysctlCpu (fun _ => none) id macText = .ok i ∧ i "supports_avx2".toList = some (.bool false) ∧
      i "supports_avx".toList = some (.bool false) := by
    refine ⟨_, rfl, ?_, ?_⟩ <;> decide +kernel
  obtain ⟨i, h1, h2, h3⟩ := hex
  constructor
  · intro h
    have := h _ _ _ i h1 ⟨"machdep.cpu.features: FPU AVX1.0\n".toList, "hw.optional.avx1_0: 1\n".toList, by decide +kernel⟩
    rw [h2] at this
    revert this
    decide
  · intro h
    have := h _ _ _ i h1 ⟨"machdep.cpu.features: FPU AVX1.0\nhw.optional.avx2_0: 1\n".toList, [], by decide +kernel⟩
    rw [h3] at this
    revert this
    decide

theorem contains_iff (sub s : Str) : contains sub s = true ↔ sub <:+: s := by
  induction s with
  | nil =>
    rw [contains, List.isPrefixOf_iff_prefix]
    simp
  | cons c t ih =>
    rw [contains, Bool.or_eq_true, List.isPrefixOf_iff_prefix, ih, List.infix_cons_iff]

/-- **C241**: AVX is found in any line of the output before a character that is not white space. -/
theorem C241_sysctl_partial (num : Str → Option Int) (lower : Str → Str) (a b : Str) (i : Info)
    (hb : ∃ c ∈ b, isWs c = false) (h : sysctlCpu num lower (a ++ "hw.optional.avx1_0: 1\n".toList ++ b) = .ok i) :
    i "supports_avx".toList = some (.bool true) := by
  have hin : "hw.optional.avx1_0: 1\n".toList <:+: strip (a ++ "hw.optional.avx1_0: 1\n".toList ++ b) := by
    obtain ⟨p, q, hx, hp, hq, _⟩ := strip_spec (a ++ "hw.optional.avx1_0: 1\n".toList ++ b)
    obtain ⟨c, hc, hcw⟩ := hb
    obtain ⟨b1, b2, rfl⟩ := List.append_of_mem hc
    generalize strip (a ++ "hw.optional.avx1_0: 1\n".toList ++ (b1 ++ c :: b2)) = s at hx ⊢
    -- the prefix stripped off is a prefix of `a`
    have hpa : p <+: a := by
      have h1 : p <+: a ++ ("hw.optional.avx1_0: 1\n".toList ++ (b1 ++ c :: b2)) := by
        rw [← List.append_assoc, hx, List.append_assoc]; exact List.prefix_append _ _
      rcases List.prefix_or_prefix_of_prefix h1 (List.prefix_append a _) with h2 | h2
      · exact h2
      · obtain ⟨t, rfl⟩ := h2
        cases t with
        | nil => simp
        | cons d t =>
          exfalso
          rw [List.prefix_append_right_inj] at h1
          obtain ⟨u, hu⟩ := h1
          have hd : d = 'h' := by
            have := congrArg List.head? hu
            simpa using this
          have := hp d (by simp)
          rw [hd] at this
          revert this
          decide
    have hqb : q <:+ b2 := by
      have h1 : q <:+ (a ++ "hw.optional.avx1_0: 1\n".toList ++ b1 ++ [c]) ++ b2 := by
        have e : (a ++ "hw.optional.avx1_0: 1\n".toList ++ b1 ++ [c]) ++ b2 = p ++ s ++ q := by rw [← hx]; simp
        rw [e]; exact List.suffix_append _ _
      rcases List.suffix_or_suffix_of_suffix h1 (List.suffix_append _ b2) with h2 | h2
      · exact h2
      · obtain ⟨t, rfl⟩ := h2
        rcases List.eq_nil_or_concat t with rfl | ⟨t', d, rfl⟩
        · simp
        · exfalso
          obtain ⟨u, hu⟩ := h1
          rw [← List.append_assoc, List.append_left_inj] at hu
          have hd : d = c := by
            rw [List.concat_eq_append, ← List.append_assoc] at hu
            have := congrArg List.getLast? hu
            rw [List.getLast?_concat, List.getLast?_concat] at this
            exact Option.some.inj this
          have := hq d (by simp)
          rw [hd, hcw] at this
          cases this
    obtain ⟨a', rfl⟩ := hpa
    obtain ⟨b', rfl⟩ := hqb
    refine ⟨a', b1 ++ c :: b', ?_⟩
    have : p ++ (a' ++ "hw.optional.avx1_0: 1\n".toList ++ (b1 ++ c :: b')) ++ q = p ++ s ++ q := by
      rw [← hx]; simp
    have h1 := List.append_cancel_right this
    exact List.append_cancel_left h1
  have hc := (contains_iff _ _).2 hin
  unfold sysctlCpu at h
  dsimp only at h
  split at h
  · cases h
  · split at h
    · cases h
    · injection h with h
      rw [← h]
      rw [Info.put_ne _ _ _ _ (by decide), Info.put_eq, hc]
    · cases h

/-- **C241**: a deep indentation makes the width negative and `printfmt` raises. -/
theorem C241_indent_refuted : ¬ ∀ (key : Str) (v : Option Str) (indent : Nat), ∃ l, printfmt key v indent [] 20 = .ok l := by
  intro h
  obtain ⟨l, hl⟩ := h [] none 10
  have : printfmt [] none 10 [] 20 = .error .valueError := rfl
  rw [this] at hl
  cases hl

/-- **C241**: exactly the indentations up to 9 are printed. -/
theorem C241_indent_partial (key : Str) (v : Option Str) (indent : Nat) :
    (∃ l, printfmt key v indent [] 20 = .ok l) ↔ indent ≤ 9 := by
  unfold printfmt
  dsimp only
  by_cases hi : indent > 0
  · rw [if_pos hi]
    by_cases h9 : indent ≤ 9
    · rw [if_neg (by omega)]
      refine ⟨fun _ => h9, fun _ => ?_⟩
      cases v <;> exact ⟨_, rfl⟩
    · rw [if_pos (by omega)]
      refine ⟨?_, fun h => absurd h h9⟩
      rintro ⟨l, hl⟩
      cases hl
  · rw [if_neg hi, if_neg (by decide)]
    refine ⟨fun _ => by omega, fun _ => ?_⟩
    cases v <;> exact ⟨_, rfl⟩

/-! ### cases -/

/-- four CPUs, in a mask with a comma. -/
example : availableCpus true (some "Name:\tpython\nCpus_allowed:\t0,0000000f\nCpus_allowed_list:\t0-3\n".toList) 8 = .ok (some 4) := by
  have e : "Name:\tpython\nCpus_allowed:\t0,0000000f\nCpus_allowed_list:\t0-3\n".toList
      = ((["Name:\tpython".toList].map fun l => l ++ ['\n']).flatten ++ ("Cpus_allowed:".toList ++ ['\t'] ++ maskText
        [some 0, none, some 0, some 0, some 0, some 0, some 0, some 0, some 0, some 15] ++ '\n' :: "Cpus_allowed_list:\t0-3\n".toList)) := by
    decide +kernel
  rw [e]
  exact C240_cpus {0, 1, 2, 3} ["Name:\tpython".toList] (by decide) ['\t'] (by decide)
    [some 0, none, some 0, some 0, some 0, some 0, some 0, some 0, some 0, some 15] (by decide) (by decide)
    _ (Or.inr ⟨_, rfl⟩) 8

/-- a block with two lines. -/
def exRows : List Row := [⟨"model name".toList, ['\t'], [' '], "X".toList, ['\n']⟩, ⟨"flags".toList, ['\t'], [' '], "fpu avx pni".toList, ['\n']⟩,
  ⟨"power management".toList, [], [], [], ['\n']⟩]

theorem exRows_good : ∀ r ∈ exRows, r.Good := by
  intro r hr
  simp only [exRows, List.mem_cons, List.not_mem_nil, or_false] at hr
  rcases hr with rfl | rfl | rfl <;>
    exact ⟨by decide, by unfold Trimmed; decide, by decide, by unfold Trimmed; decide, by decide, by decide, by decide⟩

example := C240_cpuinfo (fun _ => none) id [] exRows exRows_good [['\n'], "junk".toList] (Or.inr ⟨_, _, rfl, by decide⟩)
  ⟨"flags".toList, ['\t'], [' '], "fpu avx pni".toList, ['\n']⟩ (by rfl) rfl ["fpu".toList, "avx".toList, "pni".toList]
  ((C240_words _ _).1 (by decide))

example := C240_version (some none) (by simp)

/-- three lines, two of the processor. -/
def exMac : List SLine := [.cpu "features".toList "FPU SSE4.1".toList, .other "hw.ncpu: 4".toList, .cpu "model".toList "7".toList]

example := C240_sysctl (fun _ => none) id [] exMac
  (by
    intro l hl
    simp only [exMac, List.mem_cons, List.not_mem_nil, or_false] at hl
    rcases hl with rfl | rfl | rfl
    · exact ⟨by decide, by decide, by unfold Trimmed; decide⟩
    · show _ = _; decide
    · exact ⟨by decide, by decide, by unfold Trimmed; decide⟩)
  (by decide) (by decide) (by unfold Trimmed; decide +kernel) "FPU SSE4.1".toList (by rfl) rfl ["FPU".toList, "SSE4.1".toList]
  ((C240_words _ _).1 (by decide))

example := C241_flags_partial (fun _ => none) exRows exRows_good

example := C240_link_flags "gcc -L/a,-L/b -lmpi".toList ["gcc".toList, "-L/a".toList, "-L/b".toList, "-lmpi".toList]
  ((C240_words _ _).1 (by decide))

example : linkFlags "gcc -L/a,-L/b -lmpi".toList = ["-L/a".toList, "-L/b".toList] := by decide

example := C240_columns "version".toList "3.8".toList 1 (by decide)

example := C240_strip [' '] "a b".toList ['\n', ' '] (by decide) (by decide) (by unfold Trimmed; decide)

example := C241_strip_partial "/usr/bin/mpicc".toList (by unfold Trimmed; decide)

example : ∃ i, sysctlCpu (fun _ => none) id ("machdep.cpu.features: FPU\n".toList ++ "hw.optional.avx1_0: 1\n".toList ++ "x".toList) = .ok i := ⟨_, rfl⟩

example (i : Info) (h : sysctlCpu (fun _ => none) id ("machdep.cpu.features: FPU\n".toList ++ "hw.optional.avx1_0: 1\n".toList ++ "x".toList) = .ok i) :=
  C241_sysctl_partial (fun _ => none) id "machdep.cpu.features: FPU\n".toList "x".toList i (by decide) h

end Verif.Tools
