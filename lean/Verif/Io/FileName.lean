import Mathlib.Data.List.Infix
import Mathlib.Data.List.TakeWhile
import Mathlib.Tactic.Common

/-! # The names of the exported files -/

namespace Verif.Io

/-- A path with a file name: the directory, and the name, neither `.` nor `..`. -/
structure FilePath (D : Type) where
  dir : D
  name : List Char
deriving DecidableEq

/-- `Path::extension` of the standard library: what follows the last dot, unless there is no dot but at the start. -/
def extension (name : List Char) : Option (List Char) :=
  match name.reverse.dropWhile (· ≠ '.') with
  | [] | [_] => none
  | _ :: _ :: _ => some (name.reverse.takeWhile (· ≠ '.')).reverse

/-- `str::replace` of the dot and extension by nothing: the occurrences are found from the left and do not overlap. -/
def removeAll (ext : List Char) : List Char → List Char
  | [] => []
  | c :: cs => if ('.' :: ext).isPrefixOf (c :: cs) then removeAll ext (cs.drop ext.length) else c :: removeAll ext cs
termination_by l => l.length
decreasing_by all_goals simp <;> omega

/-- `ExportCfg::actual_path`, where `stamp` is the current time as `%Y-%m-%dT%H-%M-%S`. The file name is taken to be valid UTF-8.
io/mod.rs:104-121. -/
def actualPath {D : Type} (timestamp : Bool) (stamp : List Char) (p : FilePath D) : FilePath D :=
  if timestamp then
    match extension p.name with
    | none => p
    | some ext => { p with name := removeAll ext p.name ++ '-' :: stamp ++ '.' :: ext }
  else p

/-! ## Specification -/

/-- The name of a file from its stem and extension. -/
def fileName (stem ext : List Char) : List Char := stem ++ '.' :: ext

/-- The stem with the stamp after it. -/
def stamped (stem stamp : List Char) : List Char := stem ++ '-' :: stamp

/-! ## Theorems -/

theorem extension_fileName (stem ext : List Char) (hs : stem ≠ []) (he : '.' ∉ ext) : extension (fileName stem ext) = some ext := by
  have hall : ∀ c ∈ ext.reverse, decide (c ≠ '.') = true := by
    intro c hc
    rw [decide_eq_true_eq]
    rintro rfl
    exact he (List.mem_reverse.1 hc)
  have hr : (fileName stem ext).reverse = ext.reverse ++ '.' :: stem.reverse := by simp [fileName]
  have h1 : (fileName stem ext).reverse.dropWhile (· ≠ '.') = '.' :: stem.reverse := by
    rw [hr, List.dropWhile_append_of_pos hall]
    simp
  have h2 : (fileName stem ext).reverse.takeWhile (· ≠ '.') = ext.reverse := by
    rw [hr, List.takeWhile_append_of_pos hall]
    simp
  obtain ⟨a, as, ha⟩ := List.exists_cons_of_ne_nil (show stem.reverse ≠ [] by simpa using hs)
  rw [ha] at h1
  simp only [extension, h1, h2, List.reverse_reverse]

theorem extension_none (name : List Char) (h : '.' ∉ name) : extension name = none := by
  have : name.reverse.dropWhile (· ≠ '.') = [] := by
    rw [List.dropWhile_eq_nil_iff]
    intro c hc
    rw [decide_eq_true_eq]
    rintro rfl
    exact h (List.mem_reverse.1 hc)
  simp only [extension, this]

/-- Up to the first occurrence, nothing is removed. -/
theorem removeAll_first (ext stem t : List Char) (he : '.' ∉ ext) (h : ¬ ('.' :: ext) <:+: stem) :
    removeAll ext (stem ++ '.' :: ext ++ t) = stem ++ removeAll ext t := by
  induction stem with
  | nil =>
    simp only [List.nil_append, List.cons_append]
    rw [removeAll, if_pos (by rw [List.isPrefixOf_iff_prefix]; exact ⟨t, by simp⟩)]
    simp
  | cons c cs ih =>
    have hcs : ¬ ('.' :: ext) <:+: cs := fun hi => h (hi.trans (List.suffix_cons c cs).isInfix)
    simp only [List.cons_append]
    rw [removeAll, if_neg, ih hcs]
    rw [List.isPrefixOf_iff_prefix]
    intro hp
    have hl : (c :: cs) <+: c :: (cs ++ '.' :: ext ++ t) := ⟨'.' :: ext ++ t, by simp⟩
    have hp' : ('.' :: ext) <+: c :: (cs ++ '.' :: ext ++ t) := by simpa using hp
    rcases List.prefix_or_prefix_of_prefix hp' hl with h1 | h1
    · exact h h1.isInfix
    · obtain ⟨u, hu⟩ := h1
      rcases u with _ | ⟨d, us⟩
      · exact h ⟨[], [], by rw [← hu]; simp⟩
      · obtain ⟨w, hw⟩ := hp'
        simp only [List.cons_append, List.cons.injEq] at hu hw
        have hw2 := hw.2
        rw [List.append_assoc, ← congrArg (· ++ w) hu.2] at hw2
        simp only [List.append_assoc, List.cons_append, List.append_cancel_left_eq, List.cons.injEq] at hw2
        exact he (by rw [← hu.2, hw2.1]; simp)

/-- C235, the part which holds: the file with a stem in which the dot and extension do not occur keeps its directory, stem and extension,
with the stamp between. Missing: the other stems, and the names without an extension. -/
theorem timestamp_name_partial {D : Type} (dir : D) (stem ext stamp : List Char) (hs : stem ≠ []) (he : '.' ∉ ext) (h : ¬ ('.' :: ext) <:+: stem) :
    actualPath true stamp ⟨dir, fileName stem ext⟩ = ⟨dir, fileName (stamped stem stamp) ext⟩ := by
  have hr : removeAll ext (fileName stem ext) = stem := by
    have := removeAll_first ext stem [] he h
    simpa [fileName, removeAll] using this
  simp only [actualPath, if_true, extension_fileName stem ext hs he, hr]
  simp [fileName, stamped]

/-- C235: without the option, the path is the one given; with it, the directory is kept, and a name with an extension gets the stamp, a dot and
that extension at its end. -/
theorem timestamp_end {D : Type} (dir : D) (stem ext stamp : List Char) (hs : stem ≠ []) (he : '.' ∉ ext) :
    actualPath false stamp ⟨dir, fileName stem ext⟩ = ⟨dir, fileName stem ext⟩ ∧
      ∃ l, actualPath true stamp ⟨dir, fileName stem ext⟩ = ⟨dir, fileName (stamped l stamp) ext⟩ := by
  refine ⟨rfl, removeAll ext (fileName stem ext), ?_⟩
  simp only [actualPath, if_true, extension_fileName stem ext hs he]
  simp [fileName, stamped]

/-- C235, refuted: two files of a directory whose names differ are written to the same path, the later over the earlier, when they are exported in
the same second: the name with the extension twice, as `a.parquet.parquet`, and the name with it once. -/
theorem timestamp_collision {D : Type} (dir : D) (stem ext stamp : List Char) (hs : stem ≠ []) (he : '.' ∉ ext) (h : ¬ ('.' :: ext) <:+: stem) :
    actualPath true stamp ⟨dir, fileName (fileName stem ext) ext⟩ = actualPath true stamp ⟨dir, fileName stem ext⟩ ∧
      fileName (fileName stem ext) ext ≠ fileName stem ext ∧
      actualPath true stamp ⟨dir, fileName (fileName stem ext) ext⟩ ≠ ⟨dir, fileName (stamped (fileName stem ext) stamp) ext⟩ := by
  have hr : removeAll ext (fileName (fileName stem ext) ext) = stem := by
    have h1 := removeAll_first ext stem (fileName [] ext) he h
    have h2 : removeAll ext ('.' :: ext) = [] := by simpa [removeAll] using removeAll_first ext [] [] he (by simp)
    rw [show fileName [] ext = '.' :: ext from rfl, h2, List.append_nil] at h1
    exact h1
  have e : actualPath true stamp ⟨dir, fileName (fileName stem ext) ext⟩ = ⟨dir, fileName (stamped stem stamp) ext⟩ := by
    simp only [actualPath, if_true, extension_fileName (fileName stem ext) ext (by simp [fileName]) he, hr]
    simp [fileName, stamped]
  refine ⟨by rw [e, timestamp_name_partial dir stem ext stamp hs he h], fun hc => ?_, fun hc => ?_⟩
  · have := congrArg List.length hc
    simp only [fileName, List.length_append, List.length_cons] at this
    omega
  · rw [e, FilePath.mk.injEq] at hc
    have := congrArg List.length hc.2
    simp only [fileName, stamped, List.length_append, List.length_cons] at this
    omega

/-- C235, refuted: a name without a dot gets no stamp. -/
theorem no_extension_no_timestamp {D : Type} (dir : D) (name stamp : List Char) (h : '.' ∉ name) :
    actualPath true stamp ⟨dir, name⟩ = ⟨dir, name⟩ := by
  simp only [actualPath, if_true, extension_none name h]

/-! ## The hypotheses are met -/

example := timestamp_name_partial () "orbit.v2".toList "parquet".toList "2026-01-02T03-04-05".toList (by decide) (by decide) (by decide)
example := timestamp_collision () "orbit".toList "parquet".toList "2026-01-02T03-04-05".toList (by decide) (by decide) (by decide)
example := timestamp_end () "a.pq_data".toList "pq".toList "2026-01-02T03-04-05".toList (by decide) (by decide)
example := no_extension_no_timestamp () "orbit".toList "2026-01-02T03-04-05".toList (by decide)

/-- A stem which only starts like the extension somewhere inside. -/
example : actualPath true "T".toList ⟨(), "a.pq_data.pq".toList⟩ = ⟨(), "a_data-T.pq".toList⟩ := by
  decide +kernel

end Verif.Io
