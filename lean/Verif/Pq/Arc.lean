import Verif.Pq.Table
import Verif.Tracking.Theorems
import Verif.Device.Model
/-!
Tracking arcs in parquet files: nyx-core/src/od/msr/trackingdata/io_parquet.rs.
-/
namespace Verif.Pq
open Verif.Mc (Out)
open Verif.Tracking (Msr Bound IMap uniqueTypes)
open Verif.Device (MsrType)

variable {S : Type}

/-- The names of the columns, io_parquet.rs:59-74, 263-265 and `MeasurementType::to_field`, od/msr/types.rs:89-101:
"Epoch (UTC)", "Tracking device", and the type with its unit, all distinct. -/
inductive ArcCol where
  | epoch | device | msr (t : MsrType)
deriving DecidableEq

/-- The arc exported: `start..end` if any of the bounds or the step is there. io_parquet.rs:283-298. The arc is not
empty. -/
def exported (l : List (Msr S MsrType)) (start stop step : Option Int) : List (Msr S MsrType) :=
  if start.isSome || stop.isSome || step.isSome then
    Tracking.filterByEpoch l (.included (start.getD ((l.head?.map Msr.epoch).getD 0)))
      (.excluded (stop.getD ((l.getLast?.map Msr.epoch).getD 0)))
  else l

/-- The fields of the file. io_parquet.rs:263-278. -/
def arcFields (types : List MsrType) : List (Fld ArcCol Unit) :=
  [⟨.epoch, .utf8, false, ()⟩, ⟨.device, .utf8, false, ()⟩] ++ types.map fun t => ⟨.msr t, .float64, true, ()⟩

/-- The columns of the file. io_parquet.rs:302-330. -/
def arcCols (fmt : Int → S) (types : List MsrType) (l : List (Msr S MsrType)) : List (Cells S Rat) :=
  [.str (l.map fun m => some (fmt m.epoch)), .str (l.map fun m => some m.tracker)] ++
    types.map fun t => .num (l.map fun m => Tracking.get m.data t)

/-- `TrackingDataArc::to_parquet`: the contents of the file. The file metadata (the moduli among them), the name of
the file and errors of the file system are not modelled. `fmt` is `to_isoformat`. io_parquet.rs:239-353. -/
def arcToFile (fmt : Int → S) (a : Tracking.Arc S MsrType) (start stop step : Option Int) : Out (File ArcCol Unit S Rat) :=
  if a.measurements = [] then .err
  else
    let types := uniqueTypes a.measurements
    Mc.orErr (tryNew (arcFields types) (arcCols fmt types (exported a.measurements start stop step)))

/-- One measurement type of a row: inserted whenever the file has the column. io_parquet.rs:189-211. -/
def readType (avail : Bool) (col : Out (List (Option Rat))) (junk : Nat → Rat) (i : Nat) (t : MsrType)
    (d : IMap MsrType Rat) : Out (IMap MsrType Rat) :=
  if avail then col.bind fun l => .ok (Tracking.insert d t (valueAt junk l i)) else .ok d

/-- The column of a type; the code unwraps it only if it is in the schema. io_parquet.rs:115-169. -/
def numCol (f : File ArcCol Unit S Rat) (t : MsrType) : Out (List (Option Rat)) :=
  Mc.unwrap ((column f (.msr t)).bind Cells.asNum)

/-- One row of a file. io_parquet.rs:173-214. -/
def readRow (parse : S → Option Int) (f : File ArcCol Unit S Rat) (junkS : S) (junk : MsrType → Nat → Rat)
    (epochs devices : List (Option S)) (i : Nat) : Out (Msr S MsrType) :=
  (Mc.orErr (parse (valueAt (fun _ => junkS) epochs i))).bind fun e =>
  (readType (hasField f (.msr .range)) (numCol f .range) (junk .range) i .range []).bind fun d =>
  (readType (hasField f (.msr .doppler)) (numCol f .doppler) (junk .doppler) i .doppler d).bind fun d =>
  (readType (hasField f (.msr .azimuth)) (numCol f .azimuth) (junk .azimuth) i .azimuth d).bind fun d =>
  (readType (hasField f (.msr .elevation)) (numCol f .elevation) (junk .elevation) i .elevation d).bind fun d =>
  .ok ⟨valueAt (fun _ => junkS) devices i, e, d, false⟩

/-- `TrackingDataArc::from_parquet`. `parse` is `from_gregorian_str`, `junk` what a null reads as. The name of the file is
not modelled. io_parquet.rs:47-224. -/
def arcFromFile (parse : S → Option Int) (junkS : S) (junk : MsrType → Nat → Rat) (f : File ArcCol Unit S Rat) :
    Out (Tracking.Arc S MsrType) :=
  if !hasField f .epoch then .err
  else if !hasField f .device then .err
  else if !(hasField f (.msr .range) || hasField f (.msr .doppler) || hasField f (.msr .azimuth) ||
      hasField f (.msr .elevation)) then .err
  else
    (Mc.unwrap ((column f .device).bind Cells.asStr)).bind fun devices =>
    (Mc.unwrap ((column f .epoch).bind Cells.asStr)).bind fun epochs =>
    (rows (readRow parse f junkS junk epochs devices) (List.range (numRows f))).bind fun ms =>
    .ok ⟨ms, none, false⟩

/-! ### Specification -/

/-- The types which the reader knows. -/
def Known (t : MsrType) : Prop := t = .range ∨ t = .doppler ∨ t = .azimuth ∨ t = .elevation

/-- Some measurement of the arc has that type. -/
def Used (l : List (Msr S MsrType)) (t : MsrType) : Prop := ∃ m ∈ l, ∃ v, (t, v) ∈ m.data

/-- The same measurement: tracker, epoch, and the same value of each type. -/
def SameMsr (m m' : Msr S MsrType) : Prop :=
  m'.tracker = m.tracker ∧ m'.epoch = m.epoch ∧ ∀ t, Tracking.get m'.data t = Tracking.get m.data t

/-! ### Proofs -/

theorem foldl_uniq_mem {K : Type} [DecidableEq K] (l acc : List K) (t : K) :
    t ∈ l.foldl (fun acc k => if k ∈ acc then acc else acc ++ [k]) acc ↔ t ∈ acc ∨ t ∈ l := by
  induction l generalizing acc with
  | nil => simp
  | cons k l ih =>
    rw [List.foldl_cons, ih]
    by_cases h : k ∈ acc
    · rw [if_pos h]
      constructor
      · rintro (h1 | h1) <;> simp [h1]
      · rintro (h1 | h1)
        · exact .inl h1
        · rcases List.mem_cons.mp h1 with rfl | h2
          · exact .inl h
          · exact .inr h2
    · rw [if_neg h]
      simp only [List.mem_append, List.mem_singleton, List.mem_cons]
      tauto

theorem foldl_uniq_nodup {K : Type} [DecidableEq K] (l acc : List K) (ha : acc.Nodup) :
    (l.foldl (fun acc k => if k ∈ acc then acc else acc ++ [k]) acc).Nodup := by
  induction l generalizing acc with
  | nil => exact ha
  | cons k l ih =>
    rw [List.foldl_cons]
    apply ih
    by_cases h : k ∈ acc
    · rwa [if_pos h]
    · rw [if_neg h, List.nodup_append]
      exact ⟨ha, by simp, by intro a h1 b h2; simp only [List.mem_singleton] at h2; rintro rfl; exact h (h2 ▸ h1)⟩

theorem mem_types (l : List (Msr S MsrType)) (t : MsrType) : t ∈ uniqueTypes l ↔ Used l t := by
  unfold uniqueTypes
  rw [foldl_uniq_mem]
  simp only [List.not_mem_nil, false_or, List.mem_flatMap, List.mem_map, Prod.exists, exists_and_right,
    exists_eq_right, Used]

theorem types_nodup (l : List (Msr S MsrType)) : (uniqueTypes l).Nodup := foldl_uniq_nodup _ _ List.nodup_nil

/-- The file which is written. -/
def arcFile (fmt : Int → S) (types : List MsrType) (l : List (Msr S MsrType)) : File ArcCol Unit S Rat :=
  (arcFields types).zip (arcCols fmt types l)

theorem arcFile_eq (fmt : Int → S) (types : List MsrType) (l : List (Msr S MsrType)) : arcFile fmt types l =
    [(⟨.epoch, .utf8, false, ()⟩, .str (l.map fun m => some (fmt m.epoch))),
     (⟨.device, .utf8, false, ()⟩, .str (l.map fun m => some m.tracker))] ++
      types.map fun t => (⟨.msr t, .float64, true, ()⟩, .num (l.map fun m => Tracking.get m.data t)) := by
  simp only [arcFile, arcFields, arcCols, List.cons_append, List.nil_append, List.zip_cons_cons, List.zip_map']

theorem arcFile_names (fmt : Int → S) (types : List MsrType) (l : List (Msr S MsrType)) :
    ((arcFile fmt types l).map fun p => p.1.name) = [.epoch, .device] ++ types.map ArcCol.msr := by
  rw [arcFile_eq]
  simp [Function.comp_def]

theorem arc_written (fmt : Int → S) (a : Tracking.Arc S MsrType) (hne : a.measurements ≠ []) (start stop step : Option Int) :
    arcToFile fmt a start stop step =
      .ok (arcFile fmt (uniqueTypes a.measurements) (exported a.measurements start stop step)) := by
  unfold arcToFile
  rw [if_neg hne]
  simp only []
  rw [tryNew_ok _ _ (exported a.measurements start stop step).length (by simp [arcFields, arcCols])
    (by simp [arcCols])]
  · rfl
  · intro p hp
    change p ∈ arcFile _ _ _ at hp
    rw [arcFile_eq] at hp
    simp only [List.cons_append, List.nil_append, List.mem_cons, List.mem_map] at hp
    rcases hp with rfl | rfl | ⟨t, _, rfl⟩ <;> simp [fits, Cells.kind, Cells.length, Cells.hasNull]

theorem arcFile_column (fmt : Int → S) (types : List MsrType) (hn : types.Nodup) (l : List (Msr S MsrType)) :
    column (arcFile fmt types l) .epoch = some (.str (l.map fun m => some (fmt m.epoch))) ∧
    column (arcFile fmt types l) .device = some (.str (l.map fun m => some m.tracker)) ∧
    ∀ t ∈ types, column (arcFile fmt types l) (.msr t) = some (.num (l.map fun m => Tracking.get m.data t)) := by
  have hnd : ((arcFile fmt types l).map fun p => p.1.name).Nodup := by
    rw [arcFile_names, List.nodup_append]
    refine ⟨by simp, hn.map fun a b h => by injection h, ?_⟩
    intro a ha b hb
    simp only [List.mem_map] at hb
    obtain ⟨t, _, rfl⟩ := hb
    simp only [List.mem_cons, List.not_mem_nil, or_false] at ha
    rcases ha with rfl | rfl <;> simp
  refine ⟨?_, ?_, ?_⟩
  · exact column_mem _ hnd (⟨.epoch, .utf8, false, ()⟩, .str (l.map fun m => some (fmt m.epoch))) (by simp [arcFile_eq])
  · exact column_mem _ hnd (⟨.device, .utf8, false, ()⟩, .str (l.map fun m => some m.tracker)) (by simp [arcFile_eq])
  · intro t ht
    exact column_mem _ hnd (⟨.msr t, .float64, true, ()⟩, .num (l.map fun m => Tracking.get m.data t))
      (by rw [arcFile_eq]; simp [ht])

theorem arcFile_has (fmt : Int → S) (types : List MsrType) (l : List (Msr S MsrType)) :
    hasField (arcFile fmt types l) .epoch = true ∧ hasField (arcFile fmt types l) .device = true ∧
    ∀ t, hasField (arcFile fmt types l) (.msr t) = decide (t ∈ types) := by
  refine ⟨by rw [hasField_iff, arcFile_names]; simp, by rw [hasField_iff, arcFile_names]; simp, fun t => ?_⟩
  rw [Bool.eq_iff_iff, hasField_iff, arcFile_names]
  simp

theorem numRows_arcFile (fmt : Int → S) (types : List MsrType) (l : List (Msr S MsrType)) :
    numRows (arcFile fmt types l) = l.length := by
  rw [arcFile_eq]
  simp [numRows, Cells.length]

/-- The data of a row which is read. -/
def readData (types : List MsrType) (junk : MsrType → Nat → Rat) (m : Msr S MsrType) (i : Nat) : IMap MsrType Rat :=
  let step := fun (d : IMap MsrType Rat) (t : MsrType) =>
    if t ∈ types then Tracking.insert d t ((Tracking.get m.data t).getD (junk t i)) else d
  step (step (step (step [] .range) .doppler) .azimuth) .elevation

theorem get_readData (types : List MsrType) (junk : MsrType → Nat → Rat) (m : Msr S MsrType) (i : Nat) (t : MsrType) :
    Tracking.get (readData types junk m i) t =
      if (t = .range ∨ t = .doppler ∨ t = .azimuth ∨ t = .elevation) ∧ t ∈ types then
        some ((Tracking.get m.data t).getD (junk t i)) else none := by
  have hstep : ∀ (d : IMap MsrType Rat) (u : MsrType), Tracking.get
      (if u ∈ types then Tracking.insert d u ((Tracking.get m.data u).getD (junk u i)) else d) t =
      if u = t ∧ u ∈ types then some ((Tracking.get m.data u).getD (junk u i)) else Tracking.get d t := by
    intro d u
    by_cases hu : u ∈ types
    · rw [if_pos hu, Tracking.get_insert]
      simp [hu]
    · simp [hu]
  simp only [readData, hstep]
  cases t <;> simp [Tracking.get]

theorem valueAt_map {A : Type} (junk : Nat → Rat) (l : List A) (g : A → Option Rat) (i : Nat) (m : A) (h : l[i]? = some m) :
    valueAt junk (l.map g) i = (g m).getD (junk i) := by
  unfold valueAt
  rw [List.getElem?_map, h]
  cases hg : g m <;> simp [hg]

theorem valueAt_some {A B : Type} (junk : Nat → B) (l : List A) (g : A → B) (i : Nat) (m : A) (h : l[i]? = some m) :
    valueAt junk (l.map fun m => some (g m)) i = g m := by
  unfold valueAt
  rw [List.getElem?_map, h]
  rfl

theorem readRow_ok (fmt : Int → S) (parse : S → Option Int) (hp : ∀ e, parse (fmt e) = some e) (junkS : S)
    (junk : MsrType → Nat → Rat) (types : List MsrType) (hn : types.Nodup) (l : List (Msr S MsrType)) (i : Nat)
    (m : Msr S MsrType) (hm : l[i]? = some m) :
    readRow parse (arcFile fmt types l) junkS junk (l.map fun m => some (fmt m.epoch)) (l.map fun m => some m.tracker) i =
      .ok ⟨m.tracker, m.epoch, readData types junk m i, false⟩ := by
  obtain ⟨-, -, hcol⟩ := arcFile_column fmt types hn l
  obtain ⟨-, -, hhas⟩ := arcFile_has fmt types l
  have hread : ∀ (t : MsrType) (d : IMap MsrType Rat),
      readType (hasField (arcFile fmt types l) (.msr t)) (numCol (arcFile fmt types l) t) (junk t) i t d =
      .ok (if t ∈ types then Tracking.insert d t ((Tracking.get m.data t).getD (junk t i)) else d) := by
    intro t d
    rw [hhas]
    unfold readType
    by_cases ht : t ∈ types
    · simp only [ht, decide_true, if_true]
      simp only [numCol, hcol t ht, Option.bind_some, Cells.asNum, Mc.unwrap, Mc.Out.bind]
      rw [valueAt_map _ _ _ _ _ hm]
    · simp [ht]
  unfold readRow
  simp only [valueAt_some _ _ _ _ _ hm, hp, Mc.orErr, Mc.Out.bind, hread]
  rfl

theorem arc_read (fmt : Int → S) (parse : S → Option Int) (hp : ∀ e, parse (fmt e) = some e) (junkS : S)
    (junk : MsrType → Nat → Rat) (types : List MsrType) (hn : types.Nodup) (hk : ∃ t ∈ types, Known t)
    (l : List (Msr S MsrType)) :
    ∃ ms : List (Msr S MsrType), arcFromFile parse junkS junk (arcFile fmt types l) = .ok ⟨ms, none, false⟩ ∧ ms.length = l.length ∧
      ∀ (i : Nat) m, l[i]? = some m → ms[i]? = some ⟨m.tracker, m.epoch, readData types junk m i, false⟩ := by
  obtain ⟨he, hd, -⟩ := arcFile_column fmt types hn l
  obtain ⟨h1, h2, h3⟩ := arcFile_has fmt types l
  by_cases hl : l = []
  · subst hl
    refine ⟨[], ?_, rfl, by simp⟩
    unfold arcFromFile
    rw [h1, h2, he, hd, numRows_arcFile]
    have : (hasField (arcFile fmt types ([] : List (Msr S MsrType))) (.msr .range) || hasField (arcFile fmt types []) (.msr .doppler) ||
        hasField (arcFile fmt types []) (.msr .azimuth) || hasField (arcFile fmt types []) (.msr .elevation)) = true := by
      obtain ⟨t, ht, hkt⟩ := hk
      simp only [h3, Bool.or_eq_true, decide_eq_true_eq]
      rcases hkt with rfl | rfl | rfl | rfl <;> tauto
    rw [this]
    rfl
  obtain ⟨m0, -⟩ := List.exists_mem_of_ne_nil l hl
  set g : Nat → Msr S MsrType := fun i =>
    ⟨(l.getD i m0).tracker, (l.getD i m0).epoch, readData types junk (l.getD i m0) i, false⟩ with hg
  have hrows : rows (readRow parse (arcFile fmt types l) junkS junk (l.map fun m => some (fmt m.epoch))
      (l.map fun m => some m.tracker)) (List.range l.length) = .ok ((List.range l.length).map g) := by
    apply rows_ok
    intro i hi
    have hi' : i < l.length := List.mem_range.mp hi
    have hm : l[i]? = some (l.getD i m0) := by
      rw [List.getD_eq_getElem?_getD, List.getElem?_eq_getElem hi']
      rfl
    exact readRow_ok fmt parse hp junkS junk types hn l i _ hm
  refine ⟨(List.range l.length).map g, ?_, by simp, ?_⟩
  · unfold arcFromFile
    rw [h1, h2, he, hd, numRows_arcFile]
    have : (hasField (arcFile fmt types l) (.msr .range) || hasField (arcFile fmt types l) (.msr .doppler) ||
        hasField (arcFile fmt types l) (.msr .azimuth) || hasField (arcFile fmt types l) (.msr .elevation)) = true := by
      obtain ⟨t, ht, hkt⟩ := hk
      simp only [h3, Bool.or_eq_true, decide_eq_true_eq]
      rcases hkt with rfl | rfl | rfl | rfl <;> tauto
    rw [this]
    simp only [Bool.not_true, Bool.false_eq_true, if_false, Option.bind_some, Cells.asStr, Mc.unwrap, Mc.Out.bind, hrows]
  · intro i m hm
    have hi : i < l.length := (List.getElem?_eq_some_iff.mp hm).1
    have hgd : l.getD i m0 = m := by rw [List.getD_eq_getElem?_getD, hm]; rfl
    rw [List.getElem?_map, List.getElem?_range hi]
    simp only [Option.map_some, hg, hgd]

theorem exported_all (l : List (Msr S MsrType)) : exported l none none none = l := by
  simp [exported]

/-- **C186 (what is read back).** An arc with a type that the reader knows is written and read back with the same
trackers and epochs in the same order. No measurement is marked as rejected, there are no moduli. Each measurement has
the known types of the whole arc: its own value if it had one, and otherwise whatever was in the buffer. -/
theorem arc_read_back (fmt : Int → S) (parse : S → Option Int) (hp : ∀ e, parse (fmt e) = some e) (junkS : S)
    (junk : MsrType → Nat → Rat) (a : Tracking.Arc S MsrType) (hk : ∃ t, Known t ∧ Used a.measurements t) :
    ∃ f b, arcToFile fmt a none none none = .ok f ∧ arcFromFile parse junkS junk f = .ok b ∧
      b.moduli = none ∧ b.forceReject = false ∧ b.measurements.length = a.measurements.length ∧
      ∀ (i : Nat) m, a.measurements[i]? = some m → ∃ m', b.measurements[i]? = some m' ∧
        m'.tracker = m.tracker ∧ m'.epoch = m.epoch ∧ m'.rejected = false ∧
        (∀ t v, Known t → Tracking.get m.data t = some v → Tracking.get m'.data t = some v) ∧
        (∀ t, Known t → Tracking.get m.data t = none → Used a.measurements t →
          Tracking.get m'.data t = some (junk t i)) ∧
        (∀ t, ¬ (Known t ∧ Used a.measurements t) → Tracking.get m'.data t = none) := by
  obtain ⟨t0, hk0, hu0⟩ := hk
  have hne : a.measurements ≠ [] := by
    obtain ⟨m, hm, _⟩ := hu0
    exact List.ne_nil_of_mem hm
  obtain ⟨ms, h1, h2, h3⟩ := arc_read fmt parse hp junkS junk (uniqueTypes a.measurements) (types_nodup _)
    ⟨t0, (mem_types _ _).mpr hu0, hk0⟩ a.measurements
  refine ⟨_, _, by rw [arc_written fmt a hne, exported_all], h1, rfl, rfl, h2, ?_⟩
  intro i m hm
  refine ⟨_, h3 i m hm, rfl, rfl, rfl, ?_, ?_, ?_⟩
  · intro t v ht hv
    have hu : Used a.measurements t := by
      refine ⟨m, List.mem_of_getElem? hm, ?_⟩
      have : ∀ d : IMap MsrType Rat, Tracking.get d t = some v → (t, v) ∈ d := by
        intro d
        induction d with
        | nil => simp [Tracking.get]
        | cons e d ih =>
          obtain ⟨k, w⟩ := e
          unfold Tracking.get
          split
          · rename_i hkt
            intro h
            rw [Option.some.injEq] at h
            rw [← hkt, h]
            exact List.mem_cons_self
          · intro h
            exact List.mem_cons_of_mem _ (ih h)
      exact ⟨v, this _ hv⟩
    simp only [get_readData, mem_types, hu, and_true, hv, Option.getD_some]
    exact if_pos ht
  · intro t ht hv hu
    simp only [get_readData, mem_types, hu, and_true, hv, Option.getD_none]
    exact if_pos ht
  · intro t ht
    simp only [get_readData]
    exact if_neg fun h => ht ⟨h.1, (mem_types _ _).mp h.2⟩

/-- **C186, partial.** An arc is read back as it was written if each of its measurements has each of its types, all of which
the reader knows. (The marks of rejected measurements and the moduli are lost, see `arc_read_back`.) -/
theorem arc_roundtrip_partial (fmt : Int → S) (parse : S → Option Int) (hp : ∀ e, parse (fmt e) = some e) (junkS : S)
    (junk : MsrType → Nat → Rat) (a : Tracking.Arc S MsrType) (hne : ∃ t, Used a.measurements t)
    (hfull : ∀ t, Used a.measurements t → Known t ∧ ∀ m ∈ a.measurements, (Tracking.get m.data t).isSome) :
    ∃ f b, arcToFile fmt a none none none = .ok f ∧ arcFromFile parse junkS junk f = .ok b ∧
      List.Forall₂ SameMsr a.measurements b.measurements := by
  obtain ⟨t0, hu0⟩ := hne
  obtain ⟨f, b, h1, h2, -, -, hlen, h3⟩ := arc_read_back fmt parse hp junkS junk a ⟨t0, (hfull t0 hu0).1, hu0⟩
  refine ⟨f, b, h1, h2, List.forall₂_iff_get.mpr ⟨hlen.symm, fun i hi hi' => ?_⟩⟩
  obtain ⟨m', hm', e1, e2, -, e3, -, e5⟩ := h3 i a.measurements[i] (List.getElem?_eq_getElem hi)
  have : b.measurements.get ⟨i, hi'⟩ = m' := by
    rw [List.getElem?_eq_getElem hi', Option.some.injEq] at hm'
    exact hm'
  rw [this]
  refine ⟨e1, e2, fun t => ?_⟩
  change Tracking.get m'.data t = Tracking.get (a.measurements[i]).data t
  by_cases hu : Used a.measurements t
  · obtain ⟨hk, hall⟩ := hfull t hu
    obtain ⟨v, hv⟩ := Option.isSome_iff_exists.mp (hall _ (List.getElem_mem hi))
    rw [e3 t v hk hv, hv]
  · rw [e5 t fun h => hu h.2]
    have : ∀ d : IMap MsrType Rat, (∀ v, (t, v) ∉ d) → Tracking.get d t = none := by
      intro d
      induction d with
      | nil => intro _; rfl
      | cons e d ih =>
        obtain ⟨k, w⟩ := e
        intro h
        unfold Tracking.get
        rw [if_neg (by rintro rfl; exact h w List.mem_cons_self)]
        exact ih fun v hv => h v (List.mem_cons_of_mem _ hv)
    exact (this _ fun v hv => hu ⟨_, List.getElem_mem hi, v, hv⟩).symm

/-- **C186 refuted.** A measurement without a type that another measurement of the arc has is read back with a value of
that type, whatever null cells read as. -/
theorem missing_type_appears (fmt : Int → S) (parse : S → Option Int) (hp : ∀ e, parse (fmt e) = some e) (junkS : S)
    (junk : MsrType → Nat → Rat) (a : Tracking.Arc S MsrType) (m : Msr S MsrType) (hm : m ∈ a.measurements) (t : MsrType)
    (hk : Known t) (hu : Used a.measurements t) (hmiss : Tracking.get m.data t = none) :
    ∃ f b, arcToFile fmt a none none none = .ok f ∧ arcFromFile parse junkS junk f = .ok b ∧
      ¬ List.Forall₂ SameMsr a.measurements b.measurements := by
  obtain ⟨f, b, h1, h2, -, -, -, h3⟩ := arc_read_back fmt parse hp junkS junk a ⟨t, hk, hu⟩
  refine ⟨f, b, h1, h2, fun h => ?_⟩
  obtain ⟨i, hi, rfl⟩ := List.getElem_of_mem hm
  obtain ⟨m', hm', -, -, -, -, e4, -⟩ := h3 i _ (List.getElem?_eq_getElem hi)
  obtain ⟨hlen, hget⟩ := List.forall₂_iff_get.mp h
  have hi' : i < b.measurements.length := hlen ▸ hi
  have := (hget i hi hi').2.2 t
  rw [List.getElem?_eq_getElem hi', Option.some.injEq] at hm'
  change Tracking.get (b.measurements[i]).data t = Tracking.get (a.measurements[i]).data t at this
  rw [hm', e4 t hk hmiss hu, hmiss] at this
  simp at this

/-- **C186 refuted.** An arc of types which the reader does not know is written without an error, and cannot be read. -/
theorem unknown_types_unreadable (fmt : Int → S) (parse : S → Option Int) (junkS : S)
    (junk : MsrType → Nat → Rat) (a : Tracking.Arc S MsrType) (hne : a.measurements ≠ [])
    (hu : ∀ t, Used a.measurements t → ¬ Known t) :
    ∃ f, arcToFile fmt a none none none = .ok f ∧ arcFromFile parse junkS junk f = .err := by
  refine ⟨_, by rw [arc_written fmt a hne, exported_all], ?_⟩
  obtain ⟨h1, h2, h3⟩ := arcFile_has fmt (uniqueTypes a.measurements) a.measurements
  unfold arcFromFile
  simp only [h1, h2, h3]
  have hn : ∀ t, Known t → t ∉ uniqueTypes a.measurements := fun t hk ht => hu t ((mem_types _ _).mp ht) hk
  simp [hn .range (by simp [Known]), hn .doppler (by simp [Known]), hn .azimuth (by simp [Known]),
    hn .elevation (by simp [Known])]

/-- **C187 (empty).** An empty arc is refused. -/
theorem arc_empty_refused (fmt : Int → S) (a : Tracking.Arc S MsrType) (h : a.measurements = []) (start stop step : Option Int) :
    arcToFile fmt a start stop step = .err := by
  simp [arcToFile, h]

variable [LinearOrder S]

theorem exported_window (l : List (Msr S MsrType)) (hs : Tracking.Sorted l) (first last : Msr S MsrType)
    (hf : l.head? = some first) (hl : l.getLast? = some last) (start stop step : Option Int)
    (hcfg : start ≠ none ∨ stop ≠ none ∨ step ≠ none) :
    exported l start stop step =
      l.filter fun m => decide (start.getD first.epoch ≤ m.epoch ∧ m.epoch < stop.getD last.epoch) := by
  have hc : (start.isSome || stop.isSome || step.isSome) = true := by
    rcases hcfg with h | h | h <;> simp [Option.isSome_iff_ne_none.mpr h]
  unfold exported
  rw [if_pos hc, Tracking.filterByEpoch_eq l hs, hf, hl]
  apply List.filter_congr
  intro m _
  rw [Bool.eq_iff_iff, Tracking.inBounds_iff]
  simp [Tracking.InBounds]

/-- **C187, partial.** With both bounds, the measurements written are those with start ≤ epoch < end, in order: the
columns of the file are their epochs, their trackers and their values. -/
theorem arc_window_partial (fmt : Int → S) (a : Tracking.Arc S MsrType) (hs : Tracking.Sorted a.measurements)
    (hne : a.measurements ≠ []) (start stop : Int) (step : Option Int) :
    ∃ f, arcToFile fmt a (some start) (some stop) step = .ok f ∧
      column f .epoch = some (.str ((a.measurements.filter fun m => decide (start ≤ m.epoch ∧ m.epoch < stop)).map
        fun m => some (fmt m.epoch))) ∧
      column f .device = some (.str ((a.measurements.filter fun m => decide (start ≤ m.epoch ∧ m.epoch < stop)).map
        fun m => some m.tracker)) ∧
      ∀ t, Used a.measurements t → column f (.msr t) = some (.num
        ((a.measurements.filter fun m => decide (start ≤ m.epoch ∧ m.epoch < stop)).map fun m => Tracking.get m.data t)) := by
  obtain ⟨first, hf⟩ : ∃ x, a.measurements.head? = some x := by
    cases h : a.measurements with
    | nil => exact absurd h hne
    | cons x l => exact ⟨x, rfl⟩
  have hl := List.getLast?_eq_some_getLast hne
  refine ⟨_, arc_written fmt a hne _ _ _, ?_⟩
  rw [exported_window _ hs first _ hf hl _ _ _ (.inl (by simp))]
  obtain ⟨h1, h2, h3⟩ := arcFile_column fmt (uniqueTypes a.measurements) (types_nodup _)
    (a.measurements.filter fun m => decide (start ≤ m.epoch ∧ m.epoch < stop))
  exact ⟨h1, h2, fun t ht => h3 t ((mem_types _ _).mpr ht)⟩

/-- **C187 refuted.** The end of the export defaults to the end of the arc, and yet when a start or a step is given without
an end, no measurement of the last epoch is written. -/
theorem default_end_drops_last (fmt : Int → S) (a : Tracking.Arc S MsrType) (hs : Tracking.Sorted a.measurements)
    (hne : a.measurements ≠ []) (start step : Option Int) (hcfg : start ≠ none ∨ step ≠ none) :
    ∃ (f : File ArcCol Unit S Rat) (epochs : List Int), arcToFile fmt a start none step = .ok f ∧ column f .epoch = some (.str (epochs.map fun e => some (fmt e))) ∧
      ∀ e ∈ epochs, e < (a.measurements.getLast hne).epoch := by
  obtain ⟨first, hf⟩ : ∃ x, a.measurements.head? = some x := by
    cases h : a.measurements with
    | nil => exact absurd h hne
    | cons x l => exact ⟨x, rfl⟩
  have hl := List.getLast?_eq_some_getLast hne
  refine ⟨_, (a.measurements.filter fun m => decide (start.getD first.epoch ≤ m.epoch ∧
    m.epoch < (a.measurements.getLast hne).epoch)).map Msr.epoch, arc_written fmt a hne _ _ _, ?_, ?_⟩
  · rw [exported_window _ hs first _ hf hl _ _ _ (by tauto)]
    obtain ⟨h1, -, -⟩ := arcFile_column fmt (uniqueTypes a.measurements) (types_nodup _)
      (a.measurements.filter fun m => decide (start.getD first.epoch ≤ m.epoch ∧
        m.epoch < (none : Option Int).getD (a.measurements.getLast hne).epoch))
    rw [h1, List.map_map]
    rfl
  · intro e he
    simp only [List.mem_map, List.mem_filter, decide_eq_true_eq] at he
    obtain ⟨m, ⟨_, _, h⟩, rfl⟩ := he
    exact h

/-! ### The hypotheses are met -/

/-- An arc with a range and a Doppler at one epoch, and a range at the next. -/
def arcEx : Tracking.Arc Int MsrType :=
  ⟨[⟨7, 0, [(.range, 1), (.doppler, 2)], true⟩, ⟨7, 60, [(.range, 3)], false⟩], none, false⟩

/-- An arc with two ranges. -/
def arcEx2 : Tracking.Arc Int MsrType :=
  ⟨[⟨7, 0, [(.range, 1)], false⟩, ⟨7, 60, [(.range, 3)], false⟩], none, false⟩

/-- An arc with a received frequency. -/
def arcEx3 : Tracking.Arc Int MsrType := ⟨[⟨7, 0, [(.receiveFreq, 1)], false⟩], none, false⟩

theorem arcEx_used : Used arcEx.measurements .range ∧ Used arcEx.measurements .doppler :=
  ⟨⟨_, List.mem_cons_self, 1, by simp⟩, ⟨_, List.mem_cons_self, 2, by simp⟩⟩

theorem arcEx2_used (t : MsrType) : Used arcEx2.measurements t ↔ t = .range := by
  simp [Used, arcEx2]

theorem arcEx3_used (t : MsrType) : Used arcEx3.measurements t ↔ t = .receiveFreq := by
  simp [Used, arcEx3]

theorem arcEx_sorted : Tracking.Sorted arcEx.measurements := by
  simp [Tracking.Sorted, arcEx]

example := arc_read_back id some (fun _ => rfl) 0 (fun _ _ => 0) arcEx ⟨_, .inl rfl, arcEx_used.1⟩
example := arc_roundtrip_partial id some (fun _ => rfl) 0 (fun _ _ => 0) arcEx2 ⟨_, (arcEx2_used _).mpr rfl⟩
  (fun t ht => by
    rw [(arcEx2_used t).mp ht]
    exact ⟨.inl rfl, by simp [arcEx2, Tracking.get]⟩)
example := missing_type_appears id some (fun _ => rfl) 0 (fun _ _ => 0) arcEx ⟨7, 60, [(.range, 3)], false⟩ (by simp [arcEx])
  .doppler (.inr (.inl rfl)) arcEx_used.2 rfl
example := unknown_types_unreadable id some 0 (fun _ _ => 0) arcEx3 (by simp [arcEx3])
  (fun t ht => by rw [(arcEx3_used t).mp ht]; simp [Known])
example := arc_empty_refused id (⟨[], none, false⟩ : Tracking.Arc Int MsrType) rfl none none none
example := arc_window_partial id arcEx arcEx_sorted (by simp [arcEx]) 0 60 none
example := default_end_drops_last id arcEx arcEx_sorted (by simp [arcEx]) (some 0) none (.inl (by simp))

end Verif.Pq
