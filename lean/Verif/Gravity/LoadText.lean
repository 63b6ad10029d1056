import Verif.Gravity.Load

/-!
The text of the files of coefficients (C166, C165): lines of SHADR and COF files, the files that are not read as they are written.
-/
namespace Verif.Gravity
open Verif.MathU Matrix Polynomial
open Verif.Mc (Out orErr)
variable {Fr : Type}

theorem split_none (p : Char → Bool) (a : List Char) (ha : ∀ c ∈ a, p c = false) : split p a = [a] := by
  induction a with
  | nil => rfl
  | cons x xs ih =>
    simp only [split, ha x List.mem_cons_self, ih fun c hc => ha c (List.mem_cons_of_mem _ hc)]
    simp

theorem split_cons (p : Char → Bool) (a : List Char) (c : Char) (rest : List Char) (ha : ∀ c ∈ a, p c = false) (hc : p c = true) :
    split p (a ++ c :: rest) = a :: split p rest := by
  induction a with
  | nil => simp [split, hc]
  | cons x xs ih =>
    simp only [List.cons_append, split, ha x List.mem_cons_self, ih fun c hc => ha c (List.mem_cons_of_mem _ hc)]
    simp

theorem words_one (a : List Char) (h0 : a ≠ []) (ha : ∀ c ∈ a, c.isWhitespace = false) : words a = [a] := by
  unfold words
  rw [split_none _ a ha]
  cases a with
  | nil => exact absurd rfl h0
  | cons x xs => rfl

theorem words_cons (a : List Char) (c : Char) (rest : List Char) (h0 : a ≠ []) (ha : ∀ c ∈ a, c.isWhitespace = false)
    (hc : c.isWhitespace = true) : words (a ++ c :: rest) = a :: words rest := by
  unfold words
  rw [split_cons _ a c rest ha hc]
  cases a with
  | nil => exact absurd rfl h0
  | cons x xs => rfl

/-- Specification: a text that is one item of a line. -/
def Item (a : List Char) : Prop := a ≠ [] ∧ ∀ c ∈ a, c.isWhitespace = false ∧ c ≠ ','

theorem item_map (a : List Char) (h : Item a) : (a.map fun c => if c = ',' then ' ' else c) = a := by
  conv_rhs => rw [← List.map_id a]
  exact List.map_congr_left fun c hc => by simp [(h.2 c hc).2]

/-- C166: a line of a SHADR file is read as its degree, order and coefficients, with 'D' for 'E' as exponents or not; what follows is
ignored. -/
theorem shadr_line (N : Numbers) (tn tm tc ts more : List Char) (n m : ℕ) (c s : ℝ) (h1 : Item tn) (h2 : Item tm) (h3 : Item tc) (h4 : Item ts)
    (hn : N.nat tn = some n) (hm : N.nat tm = some m) (hc : N.flt (dToE tc) = some c) (hs : N.flt (dToE ts) = some s) :
    shadrLine N (tn ++ ',' :: (tm ++ ',' :: (tc ++ ',' :: (ts ++ ',' :: more)))) = some (some ⟨n, m, c, s⟩) := by
  unfold shadrLine
  simp only [List.map_append, List.map_cons, if_true, item_map _ h1, item_map _ h2, item_map _ h3, item_map _ h4]
  rw [words_cons tn _ _ h1.1 (fun c hc => (h1.2 c hc).1) rfl, words_cons tm _ _ h2.1 (fun c hc => (h2.2 c hc).1) rfl,
    words_cons tc _ _ h3.1 (fun c hc => (h3.2 c hc).1) rfl, words_cons ts _ _ h4.1 (fun c hc => (h4.2 c hc).1) rfl]
  simp only [shadrItems, hn, hm, hc, hs, Option.bind_some]
  cases words (List.map (fun c => if c = ',' then ' ' else c) more) <;> rfl

theorem count_zero (a : List Char) (h : '-' ∉ a) : a.count '-' = 0 := List.count_eq_zero.mpr h

theorem nodash (a : List Char) (h : '-' ∉ a) : ∀ c ∈ a, (c == '-') = false := by
  intro c hc
  simp only [beq_eq_false_iff_ne]
  rintro rfl
  exact h hc

theorem head_nodash (a rest : List Char) (h0 : a ≠ []) (h : '-' ∉ a) : (a ++ rest).head? ≠ some '-' := by
  cases a with
  | nil => exact absurd rfl h0
  | cons x xs =>
    simp only [List.cons_append, List.head?_cons, ne_eq, Option.some.injEq]
    rintro rfl
    exact h List.mem_cons_self

/-- C166: coefficients of a COF file that are written without a blank between them, the second one negative, are read as the two numbers, if both
exponents are negative. `a`, `c` are mantissas with the letter of the exponent, `b`, `d` the digits of the exponents. -/
theorem cof_joined_partial (N : Numbers) (degree : ℕ) (a b c d : List Char) (hd : degree ≠ 0) (h0 : a ≠ []) (ha : '-' ∉ a) (hb : '-' ∉ b) (hc : '-' ∉ c)
    (hdd : '-' ∉ d) :
    cofItem N degree (a ++ '-' :: b ++ ('-' :: c ++ '-' :: d)) =
        ((N.flt (a ++ '-' :: b)).bind fun x => (N.flt ('-' :: c ++ '-' :: d)).map fun y => (x, y)) ∧
      cofItem N degree ('-' :: a ++ '-' :: b ++ ('-' :: c ++ '-' :: d)) =
        ((N.flt ('-' :: a ++ '-' :: b)).bind fun x => (N.flt ('-' :: c ++ '-' :: d)).map fun y => (x, y)) := by
  have e : split (· == '-') (a ++ '-' :: b ++ ('-' :: c ++ '-' :: d)) = [a, b, c, d] := by
    rw [List.append_assoc, List.cons_append, split_cons _ a _ _ (nodash a ha) rfl, List.cons_append, split_cons _ b _ _ (nodash b hb) rfl,
      split_cons _ c _ _ (nodash c hc) rfl, split_none _ d (nodash d hdd)]
  have e' : split (· == '-') ('-' :: a ++ '-' :: b ++ ('-' :: c ++ '-' :: d)) = [[], a, b, c, d] := by
    rw [← e]
    rfl
  have k : (a ++ '-' :: b ++ ('-' :: c ++ '-' :: d)).count '-' = 3 := by
    simp [List.count_append, count_zero a ha, count_zero b hb, count_zero c hc, count_zero d hdd]
  have k' : ('-' :: a ++ '-' :: b ++ ('-' :: c ++ '-' :: d)).count '-' = 4 := by
    simp [List.count_append, count_zero a ha, count_zero b hb, count_zero c hc, count_zero d hdd]
  have hh : (a ++ '-' :: b ++ ('-' :: c ++ '-' :: d)).head? ≠ some '-' := by
    rw [List.append_assoc]
    exact head_nodash a _ h0 ha
  constructor
  · unfold cofItem
    rw [if_neg hd, if_pos (.inl ⟨k, hh⟩), e]
  · unfold cofItem
    rw [if_neg hd, if_pos (.inr k'), e']

/-- C166: but if one of the exponents is not negative, coefficients written without a blank are taken as one number. -/
theorem cof_joined_not (N : Numbers) (degree : ℕ) (a c d : List Char) (hd : degree ≠ 0) (ha : '-' ∉ a) (hc : '-' ∉ c) (hdd : '-' ∉ d) :
    cofItem N degree (a ++ ('-' :: c ++ '-' :: d)) = (N.flt (a ++ ('-' :: c ++ '-' :: d))).map (fun x => (x, 0)) ∧
      cofItem N degree ('-' :: a ++ ('-' :: c ++ '-' :: d)) = (N.flt ('-' :: a ++ ('-' :: c ++ '-' :: d))).map (fun x => (x, 0)) := by
  constructor
  · unfold cofItem
    rw [if_neg hd, if_neg]
    simp only [List.count_append, List.count_cons_self, List.cons_append, count_zero a ha, count_zero c hc, count_zero d hdd]
    rintro (h | h)
    · exact absurd h.1 (by norm_num)
    · exact absurd h (by norm_num)
  · unfold cofItem
    rw [if_neg hd, if_neg]
    simp only [List.count_append, List.count_cons_self, List.cons_append, count_zero a ha, count_zero c hc, count_zero d hdd]
    rintro (h | h)
    · exact h.2 rfl
    · exact absurd h (by norm_num)

/-- C166: a line of a COF file whose coefficients are apart is read as its degree, order and coefficients. -/
theorem cof_line (N : Numbers) (degree : ℕ) (t0 tn tm tc ts : List Char) (n m : ℕ) (c s : ℝ) (h0 : Item ('R' :: t0)) (h1 : Item tn) (h2 : Item tm)
    (h3 : Item tc) (h4 : Item ts) (hn : N.nat tn = some n) (hm : N.nat tm = some m) (hc : N.flt tc = some c) (hs : N.flt ts = some s)
    (hd : tc.count '-' ≤ 2) :
    cofLine N degree (('R' :: t0) ++ ' ' :: (tn ++ ' ' :: (tm ++ ' ' :: (tc ++ ' ' :: ts)))) = some (some ⟨n, m, c, s⟩) := by
  have e : cofItem N degree tc = some (c, 0) := by
    unfold cofItem
    split_ifs with h h'
    · rw [hc]; rfl
    · omega
    · rw [hc]; rfl
  unfold cofLine
  rw [if_pos (by rfl), words_cons _ _ _ h0.1 (fun c hc => (h0.2 c hc).1) rfl, words_cons tn _ _ h1.1 (fun c hc => (h1.2 c hc).1) rfl,
    words_cons tm _ _ h2.1 (fun c hc => (h2.2 c hc).1) rfl, words_cons tc _ _ h3.1 (fun c hc => (h3.2 c hc).1) rfl,
    words_one ts h4.1 (fun c hc => (h4.2 c hc).1)]
  simp [cofItems, hn, hm, e, hs]

/-- C166: the lines of a COF file that do not begin with `R` are skipped. -/
theorem cof_skip (N : Numbers) (degree : ℕ) (line : List Char) (h : line.head? ≠ some 'R') : cofLine N degree line = some none := by
  unfold cofLine
  rw [if_neg h]

/-- C166: `from_config` does not tell the format of a file by its extension: it takes a COF file for a SHADR file, unless the whole name of the file
is `.cof`, or `.cof.gz` if compressed. -/
theorem config_shadr (N : Numbers) (frame : Fr) (path : List (List Char)) (name : List Char) (text : Option (List Char)) (gz : Bool)
    (degree order : ℕ) (h1 : name ≠ ".cof".toList) (h2 : name ≠ ".cof.gz".toList) :
    fromConfig N (some frame) (path ++ [name]) text gz degree order = fromShadr N text degree order frame := by
  unfold fromConfig endsWith
  simp only [List.getLast?_concat, orErr, Out.bind]
  rw [if_neg]
  simp only [Bool.or_eq_true, Bool.and_eq_true, beq_iff_eq, Option.some.injEq, not_or, not_and]
  exact ⟨fun _ => h1, fun _ => h2⟩

/-- C166: a COF file, with a name, fails to load with `from_config`: the second line begins with an item that is not a number. -/
theorem config_cof_fails (N : Numbers) (frame : Fr) (path : List (List Char)) (name l0 l1 rest w : List Char) (gz : Bool) (degree order : ℕ)
    (h1 : name ≠ ".cof".toList) (h2 : name ≠ ".cof.gz".toList) (h3 : '\n' ∉ l0) (hw : Item w) (hn : N.nat w = none) (h4 : '\n' ∉ w ++ ' ' :: l1) :
    fromConfig N (some frame) (path ++ [name]) (some (l0 ++ '\n' :: (w ++ ' ' :: l1) ++ '\n' :: rest)) gz degree order = .err := by
  have nl : ∀ a : List Char, '\n' ∉ a → ∀ c ∈ a, (c == '\n') = false := by
    intro a ha c hc
    simp only [beq_eq_false_iff_ne]
    rintro rfl
    exact ha hc
  rw [config_shadr N frame path name _ gz degree order h1 h2]
  unfold fromShadr
  simp only [orErr, Out.bind]
  rw [List.append_assoc, List.cons_append, split_cons _ l0 _ _ (nl l0 h3) rfl, List.tail_cons, split_cons _ (w ++ ' ' :: l1) _ _ (nl _ h4) rfl]
  unfold fromLines
  have e : shadrLine N (w ++ ' ' :: l1) = none := by
    unfold shadrLine
    rw [List.map_append, item_map w hw, List.map_cons]
    rw [words_cons w _ _ hw.1 (fun c hc => (hw.2 c hc).1) (by decide)]
    simp [shadrItems, hn]
  simp [readLines, e, Out.bind]

/-- C165: a line beyond the degree ends the reading: a file that is not ordered by degree loses the lines that follow. -/
theorem unsorted_lost (degree order : ℕ) (parse : List Char → Option (Option Row)) (frame : Fr) (l : List Char) (ls : List (List Char)) (r : Row)
    (hl : parse l = some (some r)) (hr : degree < r.n) :
    fromLines degree order parse frame (l :: ls) = .ok ⟨0, 0, Mat.const (degree + 1) 0, Mat.const (degree + 1) 0, frame⟩ := by
  simp [fromLines, readLines, hl, hr, Out.bind]

/-- C165: a line with a degree within the one requested and an order beyond it, within the one requested, makes the loading panic. -/
theorem order_panics (degree order : ℕ) (parse : List Char → Option (Option Row)) (frame : Fr) (l : List Char) (ls : List (List Char)) (r : Row)
    (hl : parse l = some (some r)) (h1 : r.n ≤ degree) (h2 : degree < r.m) (h3 : r.m ≤ order) :
    fromLines degree order parse frame (l :: ls) = .panic := by
  simp only [fromLines, readLines, hl]
  rw [if_neg (by omega)]
  unfold addRow
  rw [if_pos h3]
  have e : (Mat.const (degree + 1) (0 : ℝ)).set r.n r.m r.c = none := by
    unfold Mat.set
    rw [if_neg]
    rintro ⟨-, h⟩
    simp only [Mat.const] at h
    omega
  simp [e, Out.bind]

/-! ### Instances -/

/-- Conversions for the examples: digits for the degrees; numbers in hundreds for the coefficients. -/
def digits : Numbers where
  nat := fun s => if s = ['2'] then some 2 else if s = ['3'] then some 3 else if s = ['0'] then some 0 else if s = ['1'] then some 1 else none
  flt := fun s => if s = ['1', '5', 'E', '-', '4'] then some 0.0015 else if s = ['-', '2', '5', 'E', '-', '4'] then some (-0.0025) else none

example := shadr_line digits ['2'] ['0'] ['1', '5', 'D', '-', '4'] ['-', '2', '5', 'D', '-', '4'] ['9'] 2 0 0.0015 (-0.0025) ⟨by simp, by simp⟩
  ⟨by simp, by simp⟩ ⟨by simp, by simp⟩ ⟨by simp, by simp⟩ rfl rfl rfl rfl

example : cofItem digits 2 ['1', '5', 'E', '-', '4', '-', '2', '5', 'E', '-', '4'] = some (0.0015, -0.0025) :=
  (cof_joined_partial digits 2 ['1', '5', 'E'] ['4'] ['2', '5', 'E'] ['4'] (by norm_num) (by simp) (by simp) (by simp) (by simp) (by simp)).1

example := cof_line digits 2 ['E'] ['2'] ['1'] ['-', '2', '5', 'E', '-', '4'] ['1', '5', 'E', '-', '4'] 2 1 (-0.0025) 0.0015 ⟨by simp, by simp⟩
  ⟨by simp, by simp⟩ ⟨by simp, by simp⟩ ⟨by simp, by simp⟩ ⟨by simp, by simp⟩ rfl rfl rfl rfl (by decide)

example := config_cof_fails digits () ["data".toList] "JGM3.cof".toList "C comment".toList "70 70".toList "RECOEF".toList "POTFIELD".toList false 2 2
  (by decide) (by decide) (by decide) ⟨by simp, by simp⟩ rfl (by decide)

/-- The lines of the file of the example: J2, C22 and S22, then a line of degree three and a blank line. -/
def fileRows : List (Option Row) := [some ⟨2, 0, -0.0005, 0⟩, some ⟨2, 1, 0, 0⟩, some ⟨2, 2, 0.000002, -0.000001⟩, some ⟨3, 0, 0.000001, 0⟩, some ⟨0, 0, 0, 0⟩]

theorem fileRows_ordered : Ordered fileRows := by
  refine ⟨?_, ?_, ?_⟩
  · intro r hr
    simp only [fileRows, List.mem_cons, Option.some.injEq, List.not_mem_nil, or_false] at hr
    rcases hr with rfl | rfl | rfl | rfl | rfl <;> simp
  · simp [fileRows, List.pairwise_cons]
  · simp [fileRows, List.pairwise_cons]

/-- A line of the file of the example is its number. -/
def parseRow (l : List Char) : Option (Option Row) := fileRows[l.length]?

noncomputable example := load_field_partial 2 2 parseRow () [[], ['a'], ['a', 'a'], ['a', 'a', 'a'], ['a', 'a', 'a', 'a']] fileRows
  (fun n m => if n = 2 ∧ m = 0 then -0.0005 else if n = 2 ∧ m = 2 then 0.000002 else if n = 3 ∧ m = 0 then 0.000001 else 0)
  (fun n m => if n = 2 ∧ m = 2 then -0.000001 else 0) rfl fileRows_ordered ⟨by
    intro r hr h1
    simp only [fileRows, List.mem_cons, Option.some.injEq, List.not_mem_nil, or_false] at hr
    rcases hr with rfl | rfl | rfl | rfl | rfl <;> simp at h1 ⊢, by
    intro n m h
    have h1 := h ⟨2, 0, -0.0005, 0⟩ (by simp [fileRows])
    have h2 := h ⟨2, 2, 0.000002, -0.000001⟩ (by simp [fileRows])
    have h3 := h ⟨3, 0, 0.000001, 0⟩ (by simp [fileRows])
    simp only at h1 h2 h3
    refine ⟨?_, ?_⟩
    · simp only
      rw [if_neg (by omega), if_neg (by omega), if_neg (by omega)]
    · simp only
      rw [if_neg (by omega)]⟩

example (ls : List (List Char)) := unsorted_lost 2 2 (fun _ => some (some ⟨3, 0, 1, 0⟩)) () ['3'] ls ⟨3, 0, 1, 0⟩ rfl (by norm_num)

example (ls : List (List Char)) := order_panics 2 4 (fun _ => some (some ⟨2, 3, 1, 0⟩)) () ['2'] ls ⟨2, 3, 1, 0⟩ rfl (by norm_num) (by norm_num) (by norm_num)

example := cof_skip digits 2 "C comment".toList (by decide)

example := (cof_joined_not digits 2 ['1', '5'] ['2', '5'] ['3'] (by norm_num) (by simp) (by simp) (by simp)).1

end Verif.Gravity
