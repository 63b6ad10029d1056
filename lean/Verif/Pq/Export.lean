import Verif.Pq.TrajFile
import Verif.Tracking.Model
/-!
The configuration of the exports, `ExportCfg` (nyx-core/src/io/mod.rs), and what it makes of the file of a trajectory:
appending a field, the metadata, the ground track.
-/
namespace Verif.Export
open Verif.Mc (Out)
open Verif.Spacecraft (Craft Param)
open Verif.Pq
open Verif.Tracking (IMap)

/-- `ExportCfg`. The time stamp of the file name is in Verif/Io/FileName. The `HashMap` of the metadata is a list of
entries with different keys. io/mod.rs:53-72. -/
structure Cfg where
  fields : Option (List XPar) := none
  start : Option Int := none
  stop : Option Int := none
  step : Option Int := none
  info : Option (IMap String String) := none
  timestamp : Bool := false

/-- `from_metadata`. io/mod.rs:76-85. -/
def fromMetadata (es : List (String × String)) : Cfg := { info := some (es.foldl (fun m e => Tracking.insert m e.1 e.2) []) }

/-- `timestamped`. io/mod.rs:88-93. -/
def timestamped : Cfg := { timestamp := true }

/-- `append_field`. io/mod.rs:95-101. -/
def Cfg.appendField (c : Cfg) (p : XPar) : Cfg :=
  match c.fields with
  | some l => { c with fields := some (l ++ [p]) }
  | none => { c with fields := some [p] }

variable {S Fr D : Type}

/-- `to_parquet` with a configuration: the contents of the file. traj.rs:227-363. -/
noncomputable def Cfg.write (c : Cfg) (w : Writer S Fr D) (log : Bool) (between : Int → Int → Int → Out (List (Craft ℝ Fr)))
    (l : List (Craft ℝ Fr)) : Out (File TCol (Option D) S ℝ) :=
  trajToFile w log between l c.fields c.start c.stop c.step

/-- The metadata of the file: the three entries of `pq_writer` (`fixed`), then those of the map which starts with the purpose
and takes the entries of the configuration. traj.rs:339-347, io/watermark.rs:29-52. -/
def Cfg.fileInfo (fixed : List (String × String)) (c : Cfg) : List (String × String) :=
  fixed ++ (c.info.getD []).foldl (fun m e => Tracking.insert m e.1 e.2) [("Purpose", "Trajectory data")]

/-- The configuration of `to_groundtrack_parquet`: latitude, longitude, height and radius are the parameters of ANISE with the
numbers `la`, `lo`, `he`, `rm`. The change of frame is not modelled: it is given the trajectory of `to_frame`.
sc_traj.rs:134-155. -/
def groundTrack (la lo he rm : Nat) (info : Option (IMap String String)) : Cfg :=
  { fields := some [.other la, .other lo, .other he, .other rm], step := some 60000000000, info := info }

/-! ### Appending a field -/

theorem written_inv {w : Writer S Fr D} {log : Bool} {between : Int → Int → Int → Out (List (Craft ℝ Fr))} {l : List (Craft ℝ Fr)}
    {req : Option (List XPar)} {start stop step : Option Int} {f : File TCol (Option D) S ℝ}
    (h : trajToFile w log between l req start stop step = .ok f) :
    ∃ xs s0, l.head? = some s0 ∧ statesOut between l start stop step = .ok xs ∧ (xs ≠ [] ∨ log = false) ∧
      f = trajFile w (w.ser s0.frame) (req.getD exportParams) xs := by
  unfold trajToFile at h
  cases hx : statesOut between l start stop step with
  | err => rw [hx] at h; cases h
  | panic => rw [hx] at h; cases h
  | ok xs =>
    cases hl : l.head? with
    | none => rw [hx, hl] at h; cases h
    | some s0 =>
      have hne : xs ≠ [] ∨ log = false := by
        by_contra hc
        rw [not_or, not_not] at hc
        obtain ⟨rfl, hc⟩ := hc
        rw [hx, hl] at h
        simp [Mc.Out.bind, Mc.unwrap, Bool.eq_true_of_not_eq_false hc] at h
      refine ⟨xs, s0, rfl, rfl, hne, ?_⟩
      have h2 := traj_written w log between l s0 hl req start stop step xs hx hne
      unfold trajToFile at h2
      rw [h] at h2
      injection h2

theorem column_append {M : Type} {F : Type} (f g : File TCol M S F) (n : TCol) (h : hasField f n = true) :
    column (f ++ g) n = column f n := by
  induction f with
  | nil => simp [hasField] at h
  | cons a f ih =>
    obtain ⟨x, c⟩ := a
    simp only [List.cons_append, column]
    split
    · rfl
    · rename_i hne
      refine ih ?_
      simpa [hasField, hne] using h

theorem trajFile_append (w : Writer S Fr D) (d : D) (req : List XPar) (p : XPar) (xs : List (Craft ℝ Fr)) :
    trajFile w d (req ++ [p]) xs = trajFile w d req xs ++ (keptFields w [p] xs).map fun p => (fieldOf w d xs p, colOf w xs p) := by
  simp [trajFile, keptFields, List.filter_append]

/-- **C255, in part.** A field appended to a configuration which has a list of fields: the file has all the columns it had
before, with the same cells, and the column of the new field if and only if it had it or one of the exported states has a
value for it; no other column. Missing: a configuration with the default fields, see `append_default_drops`. -/
theorem append_keeps_partial (c : Cfg) (req : List XPar) (hc : c.fields = some req) (p : XPar) (w : Writer S Fr D) (log : Bool)
    (between : Int → Int → Int → Out (List (Craft ℝ Fr))) (l xs : List (Craft ℝ Fr)) (f : File TCol (Option D) S ℝ)
    (hx : statesOut between l c.start c.stop c.step = .ok xs) (h : c.write w log between l = .ok f) :
    ∃ f', (c.appendField p).write w log between l = .ok f' ∧ (∀ n, hasField f n = true → column f' n = column f n) ∧
      ∀ n, hasField f' n = true ↔ hasField f n = true ∨ n = .par p ∧ ∃ s ∈ xs, (w.value s p).isSome := by
  obtain ⟨xs', s0, hl, hx', hne, rfl⟩ := written_inv h
  rw [hx] at hx'
  cases hx'
  refine ⟨trajFile w (w.ser s0.frame) (req ++ [p]) xs, ?_, ?_, ?_⟩
  · unfold Cfg.write Cfg.appendField
    rw [hc]
    exact traj_written w log between l s0 hl (some (req ++ [p])) c.start c.stop c.step xs hx hne
  · intro n hn
    rw [hc] at hn ⊢
    rw [trajFile_append]
    exact column_append _ _ n hn
  · intro n
    rw [hc]
    cases n with
    | epoch => simp [(trajFile_has _ _ _ _).1]
    | par q =>
      rw [(trajFile_has _ _ _ _).2, (trajFile_has _ _ _ _).2]
      simp only [Option.getD_some, List.mem_append, List.mem_singleton, TCol.par.injEq]
      constructor
      · rintro ⟨h1 | rfl, h2⟩
        · exact .inl ⟨h1, h2⟩
        · exact .inr ⟨rfl, h2⟩
      · rintro (⟨h1, h2⟩ | ⟨rfl, h2⟩)
        · exact ⟨.inl h1, h2⟩
        · exact ⟨.inr rfl, h2⟩

/-- **C255.** A field appended to a configuration with the default fields: the file of a trajectory which is not empty, otherwise
written and read back, has no other column than the epoch and that of this field; and it cannot be read. -/
theorem append_default_drops [DecidableEq S] (c : Cfg) (hc : c.fields = none) (h0 : c.start = none) (h1 : c.stop = none) (h2 : c.step = none)
    (p : XPar) (w : Writer S Fr D) (hw : w.modeName.Injective) (parse : S → Option Int) (hp : ∀ e, parse (w.fmt e) = some e)
    (de : D → Option Fr) (hd : ∀ fr, de (w.ser fr) = some fr) (dflt : Craft ℝ Fr) (junkS : Nat → S) (log : Bool)
    (between : Int → Int → Int → Out (List (Craft ℝ Fr))) (l : List (Craft ℝ Fr)) (hne : l ≠ [])
    (hs : (l.map fun s => s.epoch).Pairwise (· < ·)) :
    (∃ f b, c.write w log between l = .ok f ∧ trajFromFile parse de w.modeName dflt junkS f = .ok b ∧ b.length = l.length) ∧
    ∃ f', (c.appendField p).write w log between l = .ok f' ∧ (∀ q, hasField f' (.par q) = true → q = p) ∧
      trajFromFile parse de w.modeName dflt junkS f' = .err := by
  constructor
  · obtain ⟨f, b, e1, e2, e3⟩ := default_fields_partial w hw parse hp de hd dflt junkS log between l hne hs none (.inl rfl)
    refine ⟨f, b, ?_, e2, by simpa using congrArg List.length e3⟩
    unfold Cfg.write
    rw [hc, h0, h1, h2]
    exact e1
  · obtain ⟨q, hq, hqp⟩ : ∃ q : Param, (q = .propMass ∨ (∃ i, q = .pos i) ∨ ∃ i, q = .vel i) ∧ XPar.core q ∉ [p] := by
      by_cases h : XPar.core .propMass = p
      · exact ⟨.pos 0, .inr (.inl ⟨0, rfl⟩), by rw [← h]; decide⟩
      · exact ⟨.propMass, .inl rfl, by simpa using h⟩
    obtain ⟨f', e1, e2⟩ := missing_field_unreadable w log between l hne [p] q hq hqp parse de dflt hd junkS
    refine ⟨f', ?_, ?_, e2⟩
    · unfold Cfg.write Cfg.appendField
      rw [hc]
      simp only
      rw [h0, h1, h2]
      exact e1
    · obtain ⟨xs, s0, -, -, -, rfl⟩ := written_inv e1
      intro r hr
      simpa using (((trajFile_has _ _ _ _).2 r).1 hr).1

/-! ### The metadata -/

/-- The last of the entries with the key. -/
def Last (es : List (String × String)) (k v : String) : Prop := ∃ pre post, es = pre ++ (k, v) :: post ∧ ∀ e ∈ post, e.1 ≠ k

theorem mem_insert (m : IMap String String) (hm : (m.map Prod.fst).Nodup) (k v : String) :
    ((Tracking.insert m k v).map Prod.fst).Nodup ∧ (∀ x, x ∈ (Tracking.insert m k v).map Prod.fst ↔ x = k ∨ x ∈ m.map Prod.fst) ∧
    ∀ e, e ∈ Tracking.insert m k v ↔ e = (k, v) ∨ e ∈ m ∧ e.1 ≠ k := by
  induction m with
  | nil => simp [Tracking.insert]
  | cons a m ih =>
    obtain ⟨k', v'⟩ := a
    simp only [List.map_cons, List.nodup_cons] at hm
    obtain ⟨i1, i2, i3⟩ := ih hm.2
    unfold Tracking.insert
    by_cases hk : k' = k
    · subst hk
      rw [if_pos rfl]
      refine ⟨by simpa using hm, by simp, fun e => ?_⟩
      simp only [List.mem_cons]
      constructor
      · rintro (rfl | h)
        · exact .inl rfl
        · exact .inr ⟨.inr h, fun he => hm.1 (he ▸ List.mem_map_of_mem (f := Prod.fst) h)⟩
      · rintro (rfl | ⟨rfl | h, h'⟩)
        · exact .inl rfl
        · exact absurd rfl h'
        · exact .inr h
    · rw [if_neg hk]
      refine ⟨?_, ?_, ?_⟩
      · simp only [List.map_cons, List.nodup_cons]
        refine ⟨fun h => ?_, i1⟩
        rcases (i2 _).1 h with h | h
        · exact hk h
        · exact hm.1 h
      · intro x
        simp only [List.map_cons, List.mem_cons, i2]
        tauto
      · intro e
        simp only [List.mem_cons, i3]
        constructor
        · rintro (rfl | h | ⟨h, h'⟩)
          · exact .inr ⟨.inl rfl, hk⟩
          · exact .inl h
          · exact .inr ⟨.inr h, h'⟩
        · rintro (h | ⟨rfl | h, h'⟩)
          · exact .inr (.inl h)
          · exact .inl rfl
          · exact .inr (.inr ⟨h, h'⟩)

theorem mem_inserts (es : List (String × String)) (m : IMap String String) (hm : (m.map Prod.fst).Nodup) :
    ((es.foldl (fun m e => Tracking.insert m e.1 e.2) m).map Prod.fst).Nodup ∧
    ∀ k v, (k, v) ∈ es.foldl (fun m e => Tracking.insert m e.1 e.2) m ↔ Last es k v ∨ (k, v) ∈ m ∧ ∀ e ∈ es, e.1 ≠ k := by
  induction es generalizing m with
  | nil => simp [Last, hm]
  | cons a es ih =>
    obtain ⟨k', v'⟩ := a
    obtain ⟨j1, -, j3⟩ := mem_insert m hm k' v'
    obtain ⟨i1, i2⟩ := ih _ j1
    refine ⟨i1, fun k v => ?_⟩
    simp only [List.foldl_cons]
    rw [i2, j3]
    constructor
    · rintro (⟨pre, post, rfl, h⟩ | ⟨h | ⟨h1, h2⟩, h⟩)
      · exact .inl ⟨(k', v') :: pre, post, rfl, h⟩
      · injection h with e1 e2
        exact .inl ⟨[], es, by rw [e1, e2]; rfl, h⟩
      · exact .inr ⟨h1, by
          intro e he
          rcases List.mem_cons.1 he with rfl | he
          · exact fun q => h2 q.symm
          · exact h e he⟩
    · rintro (⟨pre, post, e, h⟩ | ⟨h1, h2⟩)
      · cases pre with
        | nil =>
          simp only [List.nil_append, List.cons.injEq, Prod.mk.injEq] at e
          obtain ⟨⟨rfl, rfl⟩, rfl⟩ := e
          exact .inr ⟨.inl rfl, h⟩
        | cons b pre =>
          simp only [List.cons_append, List.cons.injEq] at e
          exact .inl ⟨pre, post, e.2, h⟩
      · exact .inr ⟨.inr ⟨h1, fun q => h2 _ (List.mem_cons_self ..) q.symm⟩, fun e he => h2 e (List.mem_cons_of_mem _ he)⟩

theorem exists_last {k : String} (es : List (String × String)) (h : ∃ e ∈ es, e.1 = k) : ∃ v, Last es k v := by
  induction es with
  | nil => obtain ⟨_, h, -⟩ := h; cases h
  | cons a es ih =>
    by_cases hq : ∃ x ∈ es, x.1 = k
    · obtain ⟨v, pre, post, e1, e2⟩ := ih hq
      exact ⟨v, a :: pre, post, by rw [e1]; rfl, e2⟩
    · obtain ⟨e, he, rfl⟩ := h
      rcases List.mem_cons.1 he with rfl | he
      · exact ⟨e.2, [], es, rfl, fun x hx hx' => hq ⟨x, hx, hx'⟩⟩
      · exact absurd ⟨e, he, rfl⟩ hq

/-- **C256.** The metadata of the file with the entries given to `from_metadata`: those of the writer, the last of the entries
given for each key, and the purpose if none of them is for the key "Purpose"; nothing else. -/
theorem metadata_written (fixed es : List (String × String)) (k v : String) :
    (k, v) ∈ (fromMetadata es).fileInfo fixed ↔ (k, v) ∈ fixed ∨ Last es k v ∨
      (k = "Purpose" ∧ v = "Trajectory data" ∧ ∀ e ∈ es, e.1 ≠ "Purpose") := by
  have hm := mem_inserts es [] (by simp)
  have hl : ∀ k v, Last (es.foldl (fun m e => Tracking.insert m e.1 e.2) []) k v ↔ Last es k v := by
    intro k v
    have := hm.2 k v
    simp only [List.not_mem_nil, false_and, or_false] at this
    rw [← this]
    constructor
    · rintro ⟨pre, post, e, -⟩
      rw [e]; simp
    · intro h
      obtain ⟨pre, post, e⟩ := List.append_of_mem h
      refine ⟨pre, post, e, fun x hx hk => ?_⟩
      have hn := hm.1
      rw [e] at hn
      simp only [List.map_append, List.map_cons, List.nodup_append, List.nodup_cons] at hn
      exact hn.2.1.1 (hk ▸ List.mem_map_of_mem (f := Prod.fst) hx)
  have hk : (∀ e ∈ es.foldl (fun m e => Tracking.insert m e.1 e.2) [], e.1 ≠ "Purpose") ↔ ∀ e ∈ es, e.1 ≠ "Purpose" := by
    constructor
    · intro h e he hp
      have : ∃ v, Last es "Purpose" v := exists_last es ⟨e, he, hp⟩
      obtain ⟨v, hv⟩ := this
      exact h _ ((hm.2 _ v).2 (.inl hv)) rfl
    · rintro h ⟨a, b⟩ he rfl
      rcases (hm.2 _ b).1 he with ⟨pre, post, rfl, -⟩ | ⟨h', -⟩
      · exact h ("Purpose", b) (by simp) rfl
      · cases h'
  unfold Cfg.fileInfo fromMetadata
  simp only [Option.getD_some, List.mem_append]
  rw [(mem_inserts _ [("Purpose", "Trajectory data")] (by simp)).2, hl]
  simp only [List.mem_singleton, Prod.mk.injEq]
  constructor
  · rintro (h | h | ⟨⟨rfl, rfl⟩, h⟩)
    · exact .inl h
    · exact .inr (.inl h)
    · exact .inr (.inr ⟨rfl, rfl, hk.1 h⟩)
  · rintro (h | h | ⟨rfl, rfl, h⟩)
    · exact .inl h
    · exact .inr (.inl h)
    · exact .inr (.inr ⟨⟨rfl, rfl⟩, hk.2 h⟩)

/-- **C257, in part.** The file of the ground track: the states of `every_between` each minute from the first epoch to the last,
with the columns of the epoch, latitude, longitude, height and radius which a state has a value for, each once; no other. Missing: the
documentation says that the file has no radius, see `ground_track_radius`. -/
theorem ground_track_partial (la lo he rm : Nat) (hnd : [la, lo, he, rm].Nodup) (info : Option (IMap String String)) (w : Writer S Fr D)
    (log : Bool) (between : Int → Int → Int → Out (List (Craft ℝ Fr))) (l xs : List (Craft ℝ Fr)) (s0 s1 : Craft ℝ Fr)
    (hl : l.head? = some s0) (hr : l.getLast? = some s1) (hb : between (60 * 1000000000) s0.epoch s1.epoch = .ok xs) (hne : xs ≠ []) :
    ∃ f, (groundTrack la lo he rm info).write w log between l = .ok f ∧
      (f.map fun x => x.1.name).Nodup ∧
      column f .epoch = some (.str (xs.map fun s => some (w.fmt s.epoch))) ∧
      ∀ q, (hasField f (.par q) = true ↔
          (q = .other la ∨ q = .other lo ∨ q = .other he ∨ q = .other rm) ∧ ∃ s ∈ xs, (w.value s q).isSome) ∧
        (hasField f (.par q) = true → column f (.par q) = some (.num (xs.map fun s => w.value s q))) := by
  have hx : statesOut between l none none (some 60000000000) = .ok xs := by
    unfold statesOut
    rw [hl, hr]
    simpa [Mc.unwrap, Mc.Out.bind] using hb
  have hn : [XPar.other la, .other lo, .other he, .other rm].Nodup := by
    simpa using hnd
  refine ⟨_, traj_written w log between l s0 hl (some [.other la, .other lo, .other he, .other rm]) none none (some 60000000000) xs hx
    (.inl hne), ?_, (trajFile_column w _ _ hn xs).1, fun q => ⟨?_, fun h => ?_⟩⟩
  · rw [Option.getD_some, trajFile_names, List.nodup_cons]
    exact ⟨by simp, (hn.filter _).map fun a b h => by injection h⟩
  · rw [(trajFile_has _ _ _ _).2]
    simp
  · have h1 := (((trajFile_has _ _ _ _).2 q).1 h).1
    rw [Option.getD_some] at h ⊢
    rw [(trajFile_column w _ _ hn xs).2 q h, colOf, if_neg]
    rintro rfl
    simp at h1

/-- **C257.** The file of the ground track has the column of the radius, which the documentation of `to_groundtrack_parquet` does
not name, whenever one of its states has a radius. -/
theorem ground_track_radius (la lo he rm : Nat) (hnd : [la, lo, he, rm].Nodup) (info : Option (IMap String String)) (w : Writer S Fr D)
    (log : Bool) (between : Int → Int → Int → Out (List (Craft ℝ Fr))) (l xs : List (Craft ℝ Fr)) (s0 s1 s : Craft ℝ Fr)
    (hl : l.head? = some s0) (hr : l.getLast? = some s1) (hb : between (60 * 1000000000) s0.epoch s1.epoch = .ok xs) (hs : s ∈ xs)
    (hv : (w.value s (.other rm)).isSome) :
    ∃ f, (groundTrack la lo he rm info).write w log between l = .ok f ∧
      ¬ ∀ q, hasField f (.par q) = true → q = .other la ∨ q = .other lo ∨ q = .other he := by
  obtain ⟨f, h1, -, -, h2⟩ := ground_track_partial la lo he rm hnd info w log between l xs s0 s1 hl hr hb (List.ne_nil_of_mem hs)
  refine ⟨f, h1, fun h => ?_⟩
  have := h (.other rm) ((h2 (.other rm)).1.2 ⟨by simp, s, hs, hv⟩)
  simp only [List.nodup_cons, List.mem_cons, List.not_mem_nil, or_false, not_or] at hnd
  simp only [XPar.other.injEq] at this
  omega

/-! ### The hypotheses can be met -/

/-- A writer for which every parameter of ANISE is the number 7. -/
def exWriter7 : Writer (Int ⊕ Spacecraft.Mode) Unit Unit := ⟨.inl, id, .inr, fun _ _ => some 7⟩

noncomputable example := append_keeps_partial { fields := some [.core (.pos 0)] } _ rfl (.other 3) exWriter7 true
  (fun _ _ _ => .ok []) exTraj exTraj _ rfl
  (traj_written exWriter7 true (fun _ _ _ => .ok []) exTraj _ rfl (some [.core (.pos 0)]) none none none exTraj rfl (.inl (by simp [exTraj])))
noncomputable example := append_default_drops {} rfl rfl rfl rfl (.other 3) exWriter7 (fun _ _ h => by injection h) exParse (fun _ => rfl)
  some (fun _ => rfl) exDflt (fun _ => .inl 0) true (fun _ _ _ => .ok []) exTraj (by simp [exTraj]) exTraj_increasing
example : ("a", "2") ∈ (fromMetadata [("a", "1"), ("Purpose", "Test"), ("a", "2")]).fileInfo [("Generated by", "Nyx")] :=
  (metadata_written _ _ _ _).2 (.inr (.inl ⟨[("a", "1"), ("Purpose", "Test")], [], rfl, by simp⟩))
noncomputable example := ground_track_partial 0 1 2 3 (by decide) none exWriter7 true (fun _ _ _ => .ok exTraj) exTraj exTraj _ _ rfl rfl rfl
  (by simp [exTraj])
noncomputable example := ground_track_radius 0 1 2 3 (by decide) none exWriter7 true (fun _ _ _ => .ok exTraj) exTraj exTraj _ _ _ rfl rfl rfl
  (List.mem_cons_self ..) rfl

end Verif.Export
