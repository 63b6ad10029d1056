import Verif.Gravity.Theorems
import Verif.Mc.Model

/-!
Loading of the coefficients of a gravity field (C165): nyx-core/src/io/gravity.rs.

A text is a list of characters. The text of a file, after the decompression, and the conversions of texts to numbers are
parameters. Errors carry no message; the log is not modelled.
-/
namespace Verif.Gravity
open Verif.MathU Matrix Polynomial
open Verif.Mc (Out orErr)
variable {Fr : Type}

/-- `str::split` at the characters that satisfy `p`. -/
def split (p : Char → Bool) : List Char → List (List Char)
  | [] => [[]]
  | c :: cs => if p c then [] :: split p cs else
    match split p cs with
    | [] => [[c]]
    | w :: ws => (c :: w) :: ws

/-- `str::split_whitespace`. -/
def words (s : List Char) : List (List Char) := (split Char.isWhitespace s).filter fun w => !w.isEmpty

/-- The conversions of texts to numbers: `usize::from_str` and `f64::from_str`. -/
structure Numbers where
  nat : List Char → Option ℕ
  flt : List Char → Option ℝ

/-- A line of a file: degree, order and coefficients. -/
structure Row where
  n : ℕ
  m : ℕ
  c : ℝ
  s : ℝ

/-- `item.replace('D', "E")`. -/
def dToE (s : List Char) : List Char := s.map fun c => if c = 'D' then 'E' else c

/-- The items of a line of a SHADR file, from the item of number `ino`. io/gravity.rs:414-462. -/
def shadrItems (N : Numbers) : ℕ → List (List Char) → Row → Option Row
  | _, [], r => some r
  | 0, t :: ts, r => (N.nat t).bind fun v => shadrItems N 1 ts ⟨v, r.m, r.c, r.s⟩
  | 1, t :: ts, r => (N.nat t).bind fun v => shadrItems N 2 ts ⟨r.n, v, r.c, r.s⟩
  | 2, t :: ts, r => (N.flt (dToE t)).bind fun v => shadrItems N 3 ts ⟨r.n, r.m, v, r.s⟩
  | 3, t :: ts, r => (N.flt (dToE t)).bind fun v => shadrItems N 4 ts ⟨r.n, r.m, r.c, v⟩
  | _ + 4, _ :: _, r => some r

/-- A line of a SHADR file. io/gravity.rs:408-462. -/
def shadrLine (N : Numbers) (line : List Char) : Option (Option Row) :=
  (shadrItems N 0 (words (line.map fun c => if c = ',' then ' ' else c)) ⟨0, 0, 0, 0⟩).map some

/-- The item of number three of a line of a COF file, with the two coefficients. io/gravity.rs:219-313. -/
def cofItem (N : Numbers) (degree : ℕ) (item : List Char) : Option (ℝ × ℝ) :=
  if degree = 0 then (N.flt item).map fun c => (c, 0)
  else if item.count '-' = 3 ∧ item.head? ≠ some '-' ∨ item.count '-' = 4 then
    match split (· == '-') item with
    | [_, p1, p2, p3, p4] => (N.flt (('-' :: p1) ++ '-' :: p2)).bind fun c => (N.flt (('-' :: p3) ++ '-' :: p4)).map fun s => (c, s)
    | p0 :: p1 :: p2 :: p3 :: _ => (N.flt (p0 ++ '-' :: p1)).bind fun c => (N.flt (('-' :: p2) ++ '-' :: p3)).map fun s => (c, s)
    | _ => none
  else (N.flt item).map fun c => (c, 0)

/-- The items of a line of a COF file, from the item of number `ino`. io/gravity.rs:194-328. -/
def cofItems (N : Numbers) (degree : ℕ) : ℕ → List (List Char) → Row → Option Row
  | _, [], r => some r
  | 0, _ :: ts, r => cofItems N degree 1 ts r
  | 1, t :: ts, r => (N.nat t).bind fun v => cofItems N degree 2 ts ⟨v, r.m, r.c, r.s⟩
  | 2, t :: ts, r => (N.nat t).bind fun v => cofItems N degree 3 ts ⟨r.n, v, r.c, r.s⟩
  | 3, t :: ts, r => (cofItem N degree t).bind fun v => cofItems N degree 4 ts ⟨r.n, r.m, v.1, v.2⟩
  | 4, t :: ts, r => (N.flt t).bind fun v => cofItems N degree 5 ts ⟨r.n, r.m, r.c, v⟩
  | _ + 5, _ :: _, r => some r

/-- A line of a COF file; `none` in the option for the lines that are skipped. io/gravity.rs:185-328. -/
def cofLine (N : Numbers) (degree : ℕ) (line : List Char) : Option (Option Row) :=
  if line.head? = some 'R' then (cofItems N degree 0 (words line) ⟨0, 0, 0, 0⟩).map some else some none

/-- The matrices and the greatest degree and order so far. -/
structure Acc where
  c : Mat ℝ
  s : Mat ℝ
  maxDeg : ℕ
  maxOrd : ℕ

/-- A line within the degree is stored, if it is within the order. io/gravity.rs:336-351, 470-485. -/
def addRow (order : ℕ) (st : Acc) (r : Row) : Out Acc :=
  if r.m ≤ order then
    match st.c.set r.n r.m r.c, st.s.set r.n r.m r.s with
    | some c, some s => .ok ⟨c, s, max st.maxDeg r.n, max st.maxOrd r.m⟩
    | _, _ => .panic
  else .ok ⟨st.c, st.s, max st.maxDeg r.n, max st.maxOrd r.m⟩

/-- The loop over the lines. io/gravity.rs:184-352, 404-486. -/
def readLines (degree order : ℕ) (parse : List Char → Option (Option Row)) : List (List Char) → Acc → Out Acc
  | [], st => .ok st
  | l :: ls, st =>
    match parse l with
    | none => .err
    | some none => readLines degree order parse ls st
    | some (some r) => if degree < r.n then .ok st else (addRow order st r).bind (readLines degree order parse ls)

/-- The storage once the lines are read. io/gravity.rs:180-183, 360-366, 399-403, 494-500. -/
def fromLines (degree order : ℕ) (parse : List Char → Option (Option Row)) (frame : Fr) (lines : List (List Char)) : Out (Data Fr) :=
  (readLines degree order parse lines ⟨Mat.const (degree + 1) 0, Mat.const (degree + 1) 0, 0, 0⟩).bind fun st =>
    .ok ⟨st.maxDeg, st.maxOrd, st.c, st.s, frame⟩

/-- `GravityFieldData::from_cof`, where `text` is the text of the file if it can be read. io/gravity.rs:150-367. -/
def fromCof (N : Numbers) (text : Option (List Char)) (degree order : ℕ) (frame : Fr) : Out (Data Fr) :=
  (orErr text).bind fun t => fromLines degree order (cofLine N degree) frame (split (· == '\n') t)

/-- `GravityFieldData::from_shadr` and `load`, where the first line is skipped. io/gravity.rs:137-148, 369-501. -/
def fromShadr (N : Numbers) (text : Option (List Char)) (degree order : ℕ) (frame : Fr) : Out (Data Fr) :=
  (orErr text).bind fun t => fromLines degree order (shadrLine N) frame (split (· == '\n') t).tail

/-- `Path::ends_with`, which compares components of the path and not characters. -/
def endsWith (path : List (List Char)) (suffix : List Char) : Bool := path.getLast? == some suffix

/-- `GravityFieldData::from_config`; `path` is the list of the components of the path. io/gravity.rs:98-114. -/
def fromConfig (N : Numbers) (frame : Option Fr) (path : List (List Char)) (text : Option (List Char)) (gz : Bool) (degree order : ℕ) :
    Out (Data Fr) :=
  (orErr frame).bind fun fr =>
    if (!gz && endsWith path ".cof".toList) || (gz && endsWith path ".cof.gz".toList) then fromCof N text degree order fr
    else fromShadr N text degree order fr

/-! ### Lines -/

/-- The loop over lines that can be converted. -/
def run (degree order : ℕ) : List (Option Row) → Acc → Out Acc
  | [], st => .ok st
  | none :: ls, st => run degree order ls st
  | some r :: ls, st => if degree < r.n then .ok st else (addRow order st r).bind (run degree order ls)

theorem readLines_run (degree order : ℕ) (parse : List Char → Option (Option Row)) (lines : List (List Char)) (os : List (Option Row))
    (h : lines.mapM parse = some os) (st : Acc) : readLines degree order parse lines st = run degree order os st := by
  induction lines generalizing os st with
  | nil =>
    simp at h
    subst h
    rfl
  | cons l ls ih =>
    rw [List.mapM_cons] at h
    cases hp : parse l with
    | none => rw [hp] at h; simp at h
    | some o =>
      rw [hp] at h
      cases hq : ls.mapM parse with
      | none => rw [hq] at h; simp at h
      | some os' =>
        rw [hq] at h
        simp at h
        subst h
        cases o with
        | none => simp only [readLines, hp, run]; exact ih os' hq st
        | some r =>
          simp only [readLines, hp, run]
          split_ifs with h1
          · rfl
          · congr 1
            funext st'
            exact ih os' hq st'

/-- Specification of a file: the orders are at most the degrees, the lines are by degree, but for blank lines, and no degree and order
come twice. -/
structure Ordered (os : List (Option Row)) : Prop where
  order : ∀ r, some r ∈ os → r.m ≤ r.n
  sorted : os.Pairwise fun a b => ∀ r q, a = some r → b = some q → r.n ≤ q.n ∨ q.n = 0
  once : os.Pairwise fun a b => ∀ r q, a = some r → b = some q → 1 ≤ r.n → ¬ (r.n = q.n ∧ r.m = q.m)

theorem run_spec (degree order : ℕ) (os : List (Option Row)) (ho : Ordered os) (st : Acc) (hc : st.c.size = degree + 1)
    (hs : st.s.size = degree + 1) :
    ∃ st', run degree order os st = .ok st' ∧ st'.c.size = degree + 1 ∧ st'.s.size = degree + 1 ∧
      (∀ r, some r ∈ os → 1 ≤ r.n → r.n ≤ degree → r.m ≤ order → st'.c.val r.n r.m = some r.c ∧ st'.s.val r.n r.m = some r.s) ∧
      (∀ n m, 1 ≤ n → (∀ r, some r ∈ os → r.n ≤ degree → r.m ≤ order → ¬ (r.n = n ∧ r.m = m)) →
        st'.c.val n m = st.c.val n m ∧ st'.s.val n m = st.s.val n m) ∧
      (st.maxDeg ≤ st'.maxDeg ∧ st.maxOrd ≤ st'.maxOrd) ∧
      (∀ r, some r ∈ os → r.n ≤ degree → r.n ≤ st'.maxDeg ∧ r.m ≤ st'.maxOrd) ∧
      (st'.maxDeg = st.maxDeg ∨ ∃ r, some r ∈ os ∧ r.n ≤ degree ∧ r.n = st'.maxDeg) ∧
      (st'.maxOrd = st.maxOrd ∨ ∃ r, some r ∈ os ∧ r.n ≤ degree ∧ r.m = st'.maxOrd) := by
  induction os generalizing st with
  | nil => exact ⟨st, rfl, hc, hs, by simp, fun n m _ _ => ⟨rfl, rfl⟩, ⟨le_rfl, le_rfl⟩, by simp, .inl rfl, .inl rfl⟩
  | cons o os ih =>
    obtain ⟨h1, h2, h3⟩ := ho
    obtain ⟨h2a, h2b⟩ := List.pairwise_cons.mp h2
    obtain ⟨h3a, h3b⟩ := List.pairwise_cons.mp h3
    have ho' : Ordered os := ⟨fun r hr => h1 r (List.mem_cons_of_mem _ hr), h2b, h3b⟩
    cases o with
    | none =>
      obtain ⟨st', a1, a2, a3, a4, a5, a6, a7, a8, a9⟩ := ih ho' st hc hs
      refine ⟨st', a1, a2, a3, fun r hr => ?_, fun n m hn h => ?_, a6, fun r hr => ?_, ?_, ?_⟩
      · exact a4 r (by simpa using hr)
      · exact a5 n m hn fun r hr => h r (List.mem_cons_of_mem _ hr)
      · exact a7 r (by simpa using hr)
      · exact a8.imp_right fun ⟨r, hr, h⟩ => ⟨r, List.mem_cons_of_mem _ hr, h⟩
      · exact a9.imp_right fun ⟨r, hr, h⟩ => ⟨r, List.mem_cons_of_mem _ hr, h⟩
    | some q =>
      simp only [run]
      by_cases hq : degree < q.n
      · rw [if_pos hq]
        have hno : ∀ r, some r ∈ some q :: os → r.n ≤ degree → r.n = 0 := by
          intro r hr hd
          rcases List.mem_cons.mp hr with h | h
          · rw [Option.some.injEq] at h; subst h; omega
          · rcases h2a _ h q r rfl rfl with h | h <;> omega
        refine ⟨st, rfl, hc, hs, fun r hr h4 h5 _ => ?_, fun n m _ _ => ⟨rfl, rfl⟩, ⟨le_rfl, le_rfl⟩, fun r hr hd => ?_, .inl rfl, .inl rfl⟩
        · have := hno r hr h5; omega
        · have h4 := hno r hr hd
          have h5 := h1 r hr
          omega
      · rw [if_neg hq]
        have hm : q.m ≤ q.n := h1 q List.mem_cons_self
        -- the state after the line
        obtain ⟨st1, b1, b2, b3, b4, b5, b6, b7⟩ : ∃ st1, addRow order st q = .ok st1 ∧ st1.c.size = degree + 1 ∧ st1.s.size = degree + 1 ∧
            (q.m ≤ order → st1.c.val q.n q.m = some q.c ∧ st1.s.val q.n q.m = some q.s) ∧
            (∀ n m, ¬ (q.m ≤ order ∧ q.n = n ∧ q.m = m) → st1.c.val n m = st.c.val n m ∧ st1.s.val n m = st.s.val n m) ∧
            st1.maxDeg = max st.maxDeg q.n ∧ st1.maxOrd = max st.maxOrd q.m := by
          unfold addRow
          by_cases hmo : q.m ≤ order
          · rw [if_pos hmo, set_eq _ (by omega) (by omega), set_eq _ (by omega) (by omega)]
            refine ⟨_, rfl, hc, hs, fun _ => ⟨by simp, by simp⟩, fun n m h => ?_, rfl, rfl⟩
            simp only
            rw [if_neg (by omega), if_neg (by omega)]
            exact ⟨rfl, rfl⟩
          · rw [if_neg hmo]
            exact ⟨_, rfl, hc, hs, fun h => absurd h hmo, fun n m _ => ⟨rfl, rfl⟩, rfl, rfl⟩
        rw [b1]
        obtain ⟨st', a1, a2, a3, a4, a5, a6, a7, a8, a9⟩ := ih ho' st1 b2 b3
        refine ⟨st', a1, a2, a3, fun r hr h4 h5 h6 => ?_, fun n m hn h => ?_, ?_, fun r hr hd => ?_, ?_, ?_⟩
        · rcases List.mem_cons.mp hr with h | h
          · rw [Option.some.injEq] at h
            subst h
            obtain ⟨e1, e2⟩ := a5 r.n r.m h4 fun r' hr' h7 h8 h9 => h3a _ hr' r r' rfl rfl h4 ⟨h9.1.symm, h9.2.symm⟩
            rw [e1, e2]
            exact b4 h6
          · exact a4 r h h4 h5 h6
        · obtain ⟨e1, e2⟩ := a5 n m hn fun r hr => h r (List.mem_cons_of_mem _ hr)
          have := b5 n m fun h' => h q List.mem_cons_self (by omega) h'.1 h'.2
          rw [e1, e2]
          exact this
        · clear a8 a9
          omega
        · clear a8 a9
          rcases List.mem_cons.mp hr with h | h
          · rw [Option.some.injEq] at h
            subst h
            omega
          · exact a7 r h hd
        · clear a9
          rcases a8 with h | ⟨r, hr, h⟩
          · rcases le_total q.n st.maxDeg with h' | h'
            · left; omega
            · right; exact ⟨q, List.mem_cons_self, by omega, by omega⟩
          · exact .inr ⟨r, List.mem_cons_of_mem _ hr, h⟩
        · clear a8
          rcases a9 with h | ⟨r, hr, h⟩
          · rcases le_total q.m st.maxOrd with h' | h'
            · left; omega
            · right; exact ⟨q, List.mem_cons_self, by omega, by omega⟩
          · exact .inr ⟨r, List.mem_cons_of_mem _ hr, h⟩

/-- Specification: the coefficients that a file has, zero for those that are not in the file. -/
def Coefs (os : List (Option Row)) (C S : ℕ → ℕ → ℝ) : Prop :=
  (∀ r, some r ∈ os → 1 ≤ r.n → C r.n r.m = r.c ∧ S r.n r.m = r.s) ∧
    ∀ n m, (∀ r, some r ∈ os → ¬ (r.n = n ∧ r.m = m)) → C n m = 0 ∧ S n m = 0

theorem surface_zero (C S : ℕ → ℕ → ℝ) (p : V3) (n m : ℕ) (hC : C n m = 0) (hS : S n m = 0) : surface C S p n m = 0 := by
  simp [surface, hC, hS]

theorem sum_min (f : ℕ → ℝ) (n M : ℕ) :
    ∑ m ∈ Finset.range (min n M + 1), f m = ∑ m ∈ Finset.range (n + 1), if m ≤ M then f m else 0 := by
  rw [← Finset.sum_filter]
  refine Finset.sum_congr (Finset.ext fun m => ?_) fun _ _ => rfl
  simp only [Finset.mem_range, Finset.mem_filter]
  omega

/-- C165, partial: a file whose lines can be read and are ordered loads without panic, at most with the degree requested, and the potential of the
field is that of the coefficients of the file up to the degree and order requested, whatever the file has beyond. Missing: a file that is
not ordered by degree, see `unsorted_lost`. -/
theorem load_field_partial (degree order : ℕ) (parse : List Char → Option (Option Row)) (frame : Fr) (lines : List (List Char))
    (os : List (Option Row)) (C S : ℕ → ℕ → ℝ) (hp : lines.mapM parse = some os) (ho : Ordered os) (hC : Coefs os C S) :
    ∃ d C' S', fromLines degree order parse frame lines = .ok d ∧ d.frame = frame ∧ d.degree ≤ degree ∧
      (∀ r, some r ∈ os → r.n ≤ degree → r.n ≤ d.degree ∧ r.m ≤ d.order) ∧ d.Has C' S' ∧
      ∀ mu radius p, potential d.degree d.order C' S' mu radius p = potential degree order C S mu radius p := by
  obtain ⟨st, a1, a2, a3, a4, a5, a6, a7, a8, a9⟩ := run_spec degree order os ho
    ⟨Mat.const (degree + 1) 0, Mat.const (degree + 1) 0, 0, 0⟩ rfl rfl
  have hmax : st.maxDeg ≤ degree := by
    rcases a8 with h | ⟨r, -, h1, h2⟩
    · rw [h]; exact Nat.zero_le _
    · omega
  have hval : ∀ n m, 1 ≤ n → n ≤ degree → m ≤ n → st.c.val n m = some (if m ≤ order then C n m else 0) ∧
      st.s.val n m = some (if m ≤ order then S n m else 0) := by
    intro n m h1 h2 h3
    by_cases h : ∃ r, some r ∈ os ∧ r.n = n ∧ r.m = m ∧ m ≤ order
    · obtain ⟨r, hr, rfl, rfl, h4⟩ := h
      obtain ⟨e1, e2⟩ := a4 r hr h1 h2 h4
      obtain ⟨e3, e4⟩ := hC.1 r hr h1
      rw [e1, e2, if_pos h4, if_pos h4, e3, e4]
      exact ⟨rfl, rfl⟩
    · obtain ⟨e1, e2⟩ := a5 n m h1 fun r hr _ h5 h6 => h ⟨r, hr, h6.1, h6.2, by omega⟩
      rw [e1, e2]
      by_cases h4 : m ≤ order
      · obtain ⟨e3, e4⟩ := hC.2 n m fun r hr h6 => h ⟨r, hr, h6.1, h6.2, h4⟩
        rw [if_pos h4, if_pos h4, e3, e4]
        exact ⟨rfl, rfl⟩
      · rw [if_neg h4, if_neg h4]
        exact ⟨rfl, rfl⟩
  refine ⟨⟨st.maxDeg, st.maxOrd, st.c, st.s, frame⟩, fun n m => if m ≤ order then C n m else 0, fun n m => if m ≤ order then S n m else 0,
    ?_, rfl, hmax, a7, ?_, fun mu radius p => ?_⟩
  · unfold fromLines
    rw [readLines_run degree order parse lines os hp, a1]
    rfl
  · intro n m h1 h2 h3 h4
    simp only at h2
    obtain ⟨e1, e2⟩ := hval n m h1 (by omega) h3
    unfold Data.cs
    rw [get_eq (by simp only; omega) (by simp only; omega), get_eq (by simp only; omega) (by simp only; omega)]
    simp [e1, e2]
  · unfold potential
    simp only [sum_min]
    obtain ⟨k, hk⟩ : ∃ k, degree = st.maxDeg + k := ⟨degree - st.maxDeg, by omega⟩
    have hz : ∀ n m, n ≤ degree → (st.maxDeg < n ∨ st.maxOrd < m) → C n m = 0 ∧ S n m = 0 := by
      intro n m h1 h2
      refine hC.2 n m fun r hr h3 => ?_
      have := a7 r hr (by omega)
      omega
    rw [hk, Finset.sum_range_add, Finset.sum_eq_zero (s := Finset.range k) (fun j hj => ?_), add_zero]
    · refine Finset.sum_congr rfl fun i hi => congrArg _ (Finset.sum_congr rfl fun m _ => ?_)
      have hi' := Finset.mem_range.mp hi
      by_cases h1 : m ≤ order
      · by_cases h2 : m ≤ st.maxOrd
        · simp only [h1, h2, if_true, surface]
        · obtain ⟨e1, e2⟩ := hz (i + 1) m (by omega) (.inr (by omega))
          rw [if_neg h2, if_pos h1, surface_zero C S p (i + 1) m e1 e2]
      · rw [if_neg h1]
        split_ifs with h2
        · exact surface_zero _ _ p (i + 1) m (by simp [h1]) (by simp [h1])
        · rfl
    · have hj' := Finset.mem_range.mp hj
      rw [Finset.sum_eq_zero fun m _ => ?_, mul_zero]
      obtain ⟨e1, e2⟩ := hz (st.maxDeg + j + 1) m (by omega) (.inl (by omega))
      rw [surface_zero C S p _ m e1 e2, ite_self]

end Verif.Gravity
