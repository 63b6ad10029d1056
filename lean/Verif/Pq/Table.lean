import Verif.Mc.Model
/-!
Parquet files as the code of nyx sees them through the `arrow` and `parquet` crates: a list of fields with a
column each. The encoding of a file and its batches are not modelled: what is written is what is read, but for the
missing cells, whose value the crates do not specify.
-/
namespace Verif.Pq
open Verif.Mc (Out)

/-- The data types used: `Utf8`, `Float64`, `Boolean`. -/
inductive Kind where
  | utf8 | float64 | boolean
deriving DecidableEq

/-- An array of `arrow`; `none` is a null. Strings are a type `S`, numbers a type `F`. -/
inductive Cells (S F : Type) where
  | str (l : List (Option S))
  | num (l : List (Option F))
  | flag (l : List (Option Bool))

/-- `Field` of `arrow`: name, type, nullable, metadata. Names are a type `N` with equality. -/
structure Fld (N M : Type) where
  name : N
  kind : Kind
  nullable : Bool
  info : M

variable {N M S F : Type}

/-- The type of an array. -/
def Cells.kind : Cells S F → Kind
  | .str _ => .utf8
  | .num _ => .float64
  | .flag _ => .boolean

/-- The length of an array. -/
def Cells.length : Cells S F → Nat
  | .str l => l.length
  | .num l => l.length
  | .flag l => l.length

/-- Whether an array has a null. -/
def Cells.hasNull : Cells S F → Bool
  | .str l => l.any (·.isNone)
  | .num l => l.any (·.isNone)
  | .flag l => l.any (·.isNone)

/-- A file: the columns with their fields. -/
abbrev File (N M S F : Type) : Type := List (Fld N M × Cells S F)

/-- One field accepts one column: same type, the length of the batch, no null unless it is nullable. -/
def fits (rows : Nat) (f : Fld N M) (c : Cells S F) : Bool :=
  decide (f.kind = c.kind) && decide (c.length = rows) && (f.nullable || !c.hasNull)

/-- `RecordBatch::try_new` of `arrow`: as many fields as columns, each of which fits; the number of rows is that of
the first column. -/
def tryNew (fields : List (Fld N M)) (cols : List (Cells S F)) : Option (File N M S F) :=
  if fields.length = cols.length ∧
      (fields.zip cols).all (fun p => fits ((cols.head?.map Cells.length).getD 0) p.1 p.2)
  then some (fields.zip cols) else none

/-- `RecordBatch::column_by_name`: the first of that name. -/
def column [DecidableEq N] : File N M S F → N → Option (Cells S F)
  | [], _ => none
  | (f, c) :: rest, n => if f.name = n then some c else column rest n

/-- Whether the schema has a field of that name. -/
def hasField [DecidableEq N] (f : File N M S F) (n : N) : Bool := f.any fun p => decide (p.1.name = n)

/-- `RecordBatch::num_rows`. -/
def numRows : File N M S F → Nat
  | [] => 0
  | (_, c) :: _ => c.length

/-- `downcast_ref::<StringArray>()`. -/
def Cells.asStr : Cells S F → Option (List (Option S))
  | .str l => some l
  | _ => none

/-- `downcast_ref::<Float64Array>()`. -/
def Cells.asNum : Cells S F → Option (List (Option F))
  | .num l => some l
  | _ => none

/-- `downcast_ref::<BooleanArray>()`. -/
def Cells.asFlag : Cells S F → Option (List (Option Bool))
  | .flag l => some l
  | _ => none

/-- `value(i)`: the cell, or if it is null what is in the buffer at that place, which is not specified. -/
def valueAt {A : Type} (junk : Nat → A) (l : List (Option A)) (i : Nat) : A :=
  match l[i]? with
  | some (some v) => v
  | _ => junk i

/-- A loop over rows which stops at the first error. -/
def rows {A : Type} (f : Nat → Out A) : List Nat → Out (List A)
  | [] => .ok []
  | i :: is => (f i).bind fun a => (rows f is).bind fun as => .ok (a :: as)

/-! ### Lemmas -/

theorem rows_ok {A : Type} (f : Nat → Out A) (g : Nat → A) (l : List Nat) (h : ∀ i ∈ l, f i = .ok (g i)) :
    rows f l = .ok (l.map g) := by
  induction l with
  | nil => rfl
  | cons i l ih =>
    have h1 := h i (by simp)
    have h2 := ih fun j hj => h j (by simp [hj])
    simp only [rows, h1, h2, Mc.Out.bind, List.map_cons]

theorem hasField_iff [DecidableEq N] (f : File N M S F) (n : N) :
    hasField f n = true ↔ n ∈ f.map fun p => p.1.name := by
  simp only [hasField, List.any_eq_true, decide_eq_true_eq, List.mem_map]

theorem column_mem [DecidableEq N] (f : File N M S F) (hn : (f.map fun p => p.1.name).Nodup) (p) (hp : p ∈ f) :
    column f p.1.name = some p.2 := by
  induction f with
  | nil => simp at hp
  | cons q f ih =>
    obtain ⟨qf, qc⟩ := q
    simp only [List.map_cons, List.nodup_cons] at hn
    rcases List.mem_cons.mp hp with h | h
    · subst h
      simp [column]
    · have hne : qf.name ≠ p.1.name := fun e => hn.1 (by rw [e]; exact List.mem_map_of_mem h)
      simp only [column, if_neg hne]
      exact ih hn.2 h

/-- A batch is accepted when each column fits. -/
theorem tryNew_ok (fields : List (Fld N M)) (cols : List (Cells S F)) (n : Nat) (hl : fields.length = cols.length)
    (hc : cols ≠ []) (h : ∀ p ∈ fields.zip cols, fits n p.1 p.2 = true) :
    tryNew fields cols = some (fields.zip cols) := by
  have hhead : (cols.head?.map Cells.length).getD 0 = n := by
    cases cols with
    | nil => exact absurd rfl hc
    | cons c cols =>
      cases fields with
      | nil => simp at hl
      | cons f fields =>
        have := h (f, c) (by simp)
        simp only [fits, Bool.and_eq_true, decide_eq_true_eq] at this
        simpa using this.1.2
  unfold tryNew
  rw [if_pos]
  refine ⟨hl, ?_⟩
  rw [hhead, List.all_eq_true]
  exact h

/-- Columns of different lengths are refused. -/
theorem tryNew_ragged (fields : List (Fld N M)) (cols : List (Cells S F)) (c d : Cells S F) (hc : c ∈ cols) (hd : d ∈ cols)
    (h : c.length ≠ d.length) : tryNew fields cols = none := by
  unfold tryNew
  rw [if_neg]
  rintro ⟨hl, hall⟩
  rw [List.all_eq_true] at hall
  have hlen : ∀ c ∈ cols, c.length = (cols.head?.map Cells.length).getD 0 := by
    intro c hc
    obtain ⟨i, hi, rfl⟩ := List.getElem_of_mem hc
    have := hall (fields[i]'(by omega), cols[i]) (by
      rw [List.mem_iff_getElem]
      exact ⟨i, by simp [List.length_zip]; omega, by simp⟩)
    simp only [fits, Bool.and_eq_true, decide_eq_true_eq] at this
    exact this.1.2
  exact h ((hlen c hc).trans (hlen d hd).symm)

end Verif.Pq
