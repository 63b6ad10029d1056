import Verif.Sched.Model
import Mathlib.Tactic.Common

/-! # The tracking configurations as text

The YAML library gives and takes trees of values, `Val`; the printing and parsing of durations and epochs are those of hifitime, parameters. -/

namespace Verif.Sched

/-- The values of a YAML document, with texts of type `S`. -/
inductive Val (S : Type) where
  | null
  | num (n : Nat)
  | str (s : S)
  | seq (l : List (Val S))
  | map (l : List (String × Val S))
  /-- an enum variant with fields -/
  | variant (name : String) (fields : List (String × Val S))

/-- What hifitime and the YAML library do with texts: `Display` and `FromStr` of `Duration` and `Epoch`, the text of a name, of a null and of a
number. -/
structure Texts (S : Type) where
  showDur : Int → S
  parseDur : S → Option Int
  showEpoch : Int → S
  parseEpoch : S → Option Int
  ofName : String → S
  nul : S
  showNum : Nat → S

variable {S : Type} [DecidableEq S] (T : Texts S)

/-- `String::deserialize`: the text of a scalar. -/
def Val.text : Val S → Option S
  | .null => some T.nul
  | .num n => some (T.showNum n)
  | .str s => some s
  | _ => none

/-- The value of a field; a field occurs once. -/
def field (l : List (String × Val S)) (name : String) : Option (Val S) := (l.find? fun e => e.1 == name).map Prod.snd

/-- `duration_to_str`. io/mod.rs:246-251. -/
def writeDur (d : Int) : Val S := .str (T.showDur d)

/-- `duration_from_str`. io/mod.rs:254-261. -/
def readDur (v : Val S) : Option Int := (v.text T).bind T.parseDur

/-- `epoch_to_str`. io/mod.rs:229-234. -/
def writeEpoch (e : Int) : Val S := .str (T.showEpoch e)

/-- `epoch_from_str`. io/mod.rs:237-244. -/
def readEpoch (v : Val S) : Option Int := (v.text T).bind T.parseEpoch

/-- `maybe_duration_to_str`. io/mod.rs:263-275. -/
def writeMaybe : Option Int → Val S
  | some d => writeDur T d
  | none => .null

/-- `maybe_duration_from_str`. A list or a mapping is swallowed as well, but the reader has then not passed it: here it is refused.
io/mod.rs:277-290. -/
def readMaybe (v : Val S) : Option (Option Int) := (v.text T).map T.parseDur

/-- The derived names of `Handoff`. scheduler.rs:33-45. -/
def Handoff.label : Handoff → String
  | .eager => "Eager"
  | .greedy => "Greedy"
  | .overlap => "Overlap"

/-- The derived reading of `Handoff`. scheduler.rs:33-45. -/
def readHandoff (v : Val S) : Option Handoff :=
  (v.text T).bind fun s => [Handoff.eager, .greedy, .overlap].find? fun h => T.ofName h.label = s

/-- The derived writing of `Cadence`. scheduler.rs:83-101. -/
def writeCadence : Cadence → Val S
  | .continuous => .str (T.ofName "Continuous")
  | .intermittent on off => .variant "Intermittent" [("on", writeDur T on), ("off", writeDur T off)]

/-- The derived reading of `Cadence`. scheduler.rs:83-101. -/
def readCadence : Val S → Option Cadence
  | .variant name l =>
    if name = "Intermittent" then
      (field l "on").bind fun a => (readDur T a).bind fun on => (field l "off").bind fun b => (readDur T b).bind fun off => some (.intermittent on off)
    else none
  | v => (v.text T).bind fun s => if s = T.ofName "Continuous" then some .continuous else none

/-- A `u32`. -/
def readU32 : Val S → Option Nat
  | .num n => if n < 2 ^ 32 then some n else none
  | _ => none

/-- The derived writing of `Scheduler`. scheduler.rs:60-80. -/
def writeScheduler (s : Scheduler) : Val S :=
  .map [("handoff", .str (T.ofName s.handoff.label)), ("cadence", writeCadence T s.cadence), ("min_samples", .num s.minSamples),
    ("sample_alignment", writeMaybe T s.alignment)]

/-- The derived reading of `Scheduler`: all the fields are required. scheduler.rs:60-80. -/
def readScheduler : Val S → Option Scheduler
  | .map l =>
    (field l "handoff").bind fun a => (readHandoff T a).bind fun h =>
    (field l "cadence").bind fun b => (readCadence T b).bind fun c =>
    (field l "min_samples").bind fun d => (readU32 d).bind fun n =>
    (field l "sample_alignment").bind fun e => (readMaybe T e).bind fun al => some ⟨h, c, n, al⟩
  | _ => none

/-- The derived writing of `Strand`. trkconfig.rs:260-268. -/
def writeStrand (s : Strand) : Val S := .map [("start", writeEpoch T s.start), ("end", writeEpoch T s.stop)]

/-- The derived reading of `Strand`. trkconfig.rs:260-268. -/
def readStrand : Val S → Option Strand
  | .map l => (field l "start").bind fun a => (readEpoch T a).bind fun s => (field l "end").bind fun b => (readEpoch T b).bind fun e => some ⟨s, e⟩
  | _ => none

/-- The derived reading of an optional field: absent or null is `None`. -/
def readOpt {A : Type} (read : Val S → Option A) : Option (Val S) → Option (Option A)
  | none => some none
  | some .null => some none
  | some v => (read v).map some

/-- All the strands of a list. -/
def readStrands : Val S → Option (List Strand)
  | .seq l => l.mapM (readStrand T)
  | _ => none

/-- The derived writing of `TrkConfig`. trkconfig.rs:38-56. -/
def writeCfg (c : Cfg) : Val S :=
  .map [("scheduler", c.scheduler.elim .null (writeScheduler T)), ("sampling", writeDur T c.sampling),
    ("strands", c.strands.elim .null fun l => .seq (l.map (writeStrand T)))]

/-- The derived reading of `TrkConfig`. trkconfig.rs:38-56. -/
def readCfg : Val S → Option Cfg
  | .map l =>
    (readOpt (readScheduler T) (field l "scheduler")).bind fun s =>
    (field l "sampling").bind fun a => (readDur T a).bind fun d =>
    (readOpt (readStrands T) (field l "strands")).bind fun st => some ⟨s, d, st⟩
  | _ => none

/-- The derived `Default` of `Scheduler`. scheduler.rs:60. -/
def Scheduler.derived : Scheduler := ⟨.eager, .continuous, 0, none⟩

/-! ## Specification -/

/-- What is printed is read back, names are distinct, and a null is not a duration. -/
structure Faithful : Prop where
  dur : ∀ d, T.parseDur (T.showDur d) = some d
  epoch : ∀ e, T.parseEpoch (T.showEpoch e) = some e
  name : Function.Injective T.ofName
  nul : T.parseDur T.nul = none

/-- The field of that name holds a text which reads as the duration `d`. -/
def HasDur (l : List (String × Val S)) (name : String) (d : Int) : Prop :=
  ∃ v s, field l name = some v ∧ v.text T = some s ∧ T.parseDur s = some d

/-! ## Theorems -/

theorem readStrands_map (h : Faithful T) (l : List Strand) : (l.map (writeStrand T)).mapM (readStrand T) = some l := by
  induction l with
  | nil => rfl
  | cons a l ih =>
    have ha : readStrand T (writeStrand T a) = some a := by
      simp [readStrand, writeStrand, field, readEpoch, writeEpoch, Val.text, h.epoch]
    simp [ha, ih]

theorem scheduler_round (h : Faithful T) (s : Scheduler) (hn : s.minSamples < 2 ^ 32) : readScheduler T (writeScheduler T s) = some s := by
  have h1 : readHandoff T (.str (T.ofName s.handoff.label)) = some s.handoff := by
    cases s.handoff <;> simp [readHandoff, Val.text, h.name.eq_iff, Handoff.label]
  have h2 : readCadence T (writeCadence T s.cadence) = some s.cadence := by
    cases s.cadence <;> simp [readCadence, writeCadence, Val.text, field, readDur, writeDur, h.dur]
  have h3 : readMaybe T (writeMaybe T s.alignment) = some s.alignment := by
    cases s.alignment <;> simp [readMaybe, writeMaybe, writeDur, Val.text, h.dur, h.nul]
  have hn' : s.minSamples < 4294967296 := by simpa using hn
  simp [readScheduler, writeScheduler, field, h1, h2, h3, readU32, hn']

/-- C236: a configuration which is written and read is the same. -/
theorem config_text_round (h : Faithful T) (c : Cfg) (hn : ∀ s, c.scheduler = some s → s.minSamples < 2 ^ 32) :
    readCfg T (writeCfg T c) = some c := by
  have h1 : readOpt (readScheduler T) (some (c.scheduler.elim .null (writeScheduler T))) = some c.scheduler := by
    cases hs : c.scheduler with
    | none => rfl
    | some s =>
      have := scheduler_round T h s (hn s hs)
      simp only [Option.elim_some]
      rw [show writeScheduler T s = .map _ from rfl] at this ⊢
      simp only [readOpt, this, Option.map_some]
  have h2 : readOpt (readStrands T) (some (c.strands.elim .null fun l => .seq (l.map (writeStrand T)))) = some c.strands := by
    cases c.strands with
    | none => rfl
    | some l => simp [readOpt, readStrands, readStrands_map T h l]
  simp [readCfg, writeCfg, field] at h1 h2 ⊢
  simp [h1, h2, readDur, writeDur, Val.text, h.dur]

theorem readDur_some {l : List (String × Val S)} {name : String} {v : Val S} {d : Int} (hf : field l name = some v) (h : readDur T v = some d) :
    HasDur T l name d := by
  obtain ⟨s, hs, hp⟩ := Option.bind_eq_some_iff.1 h
  exact ⟨v, s, hf, hs, hp⟩

/-- C236, the part which holds: a configuration is only read when the sampling and the two durations of the cadence are texts that read
as durations, and those are the ones of the configuration. Missing: the alignment. -/
theorem unreadable_refused_partial (l : List (String × Val S)) (c : Cfg) (h : readCfg T (.map l) = some c) :
    HasDur T l "sampling" c.sampling ∧
      ∀ s on off, c.scheduler = some s → s.cadence = .intermittent on off →
        ∃ ls lc, field l "scheduler" = some (.map ls) ∧ field ls "cadence" = some (.variant "Intermittent" lc) ∧
          HasDur T lc "on" on ∧ HasDur T lc "off" off := by
  simp only [readCfg, Option.bind_eq_some_iff, Option.some.injEq] at h
  obtain ⟨so, hso, v, hv, d, hd, st, -, rfl⟩ := h
  refine ⟨readDur_some T hv hd, ?_⟩
  rintro s on off rfl hc
  cases hf : field l "scheduler" with
  | none => rw [hf] at hso; simp [readOpt] at hso
  | some w =>
    rw [hf] at hso
    cases w with
    | map ls =>
      refine ⟨ls, ?_⟩
      simp only [readOpt, Option.map_eq_some_iff, Option.some.injEq, exists_eq_right] at hso
      simp only [readScheduler, Option.bind_eq_some_iff, Option.some.injEq] at hso
      obtain ⟨-, -, hh, -, b, hb, cc, hcc, -, -, n, -, -, -, al, -, rfl⟩ := hso
      dsimp only at hc
      subst hc
      cases b with
      | variant name lc =>
        simp only [readCadence] at hcc
        split_ifs at hcc with hname
        subst hname
        simp only [Option.bind_eq_some_iff, Option.some.injEq, Cadence.intermittent.injEq] at hcc
        obtain ⟨a1, ha1, on', hon, a2, ha2, off', hoff, rfl, rfl⟩ := hcc
        exact ⟨lc, rfl, hb, readDur_some T ha1 hon, readDur_some T ha2 hoff⟩
      | _ => simp [readCadence, Val.text] at hcc
    | _ => simp [readOpt, readScheduler] at hso

/-- C236, refuted: a scheduler whose alignment is a text that is not a duration is read, without any alignment. -/
theorem unreadable_alignment (h : Faithful T) (s : Scheduler) (hn : s.minSamples < 2 ^ 32) (bad : S) (hb : T.parseDur bad = none) :
    readScheduler T (.map [("handoff", .str (T.ofName s.handoff.label)), ("cadence", writeCadence T s.cadence), ("min_samples", .num s.minSamples),
      ("sample_alignment", .str bad)]) = some { s with alignment := none } := by
  have := scheduler_round T h { s with alignment := none } hn
  simp only [writeScheduler, writeMaybe, readScheduler, field, readMaybe, Val.text] at this ⊢
  simpa [hb, h.nul] using this

/-- C236: whereas a missing alignment is refused. -/
theorem missing_alignment (l : List (String × Val S)) (h : field l "sample_alignment" = none) : readScheduler T (.map l) = none := by
  simp [readScheduler, h]

/-- C236, refuted: the derived default of a scheduler keeps shorter passes than that of its builder, and does not align the samples. -/
theorem scheduler_default_differs : Scheduler.derived.minSamples < Scheduler.built.minSamples ∧ Scheduler.derived.alignment ≠ Scheduler.built.alignment := by
  decide

/-! ## The hypotheses are met -/

/-- Durations and epochs of any sign as numbers, names as they are, and the null as the empty name. -/
def sampleTexts : Texts (String ⊕ Int) :=
  ⟨.inr, Sum.elim (fun _ => none) some, .inr, Sum.elim (fun _ => none) some, .inl, .inl "", fun n => .inl (toString n)⟩

theorem sampleTexts_faithful : Faithful sampleTexts := ⟨fun _ => rfl, fun _ => rfl, Sum.inl_injective, rfl⟩

example := config_text_round sampleTexts sampleTexts_faithful ⟨some ⟨.greedy, .intermittent (3600 * second) (60 * second), 10, some second⟩, 60 * second, some [⟨0, 5⟩, ⟨9, 12⟩]⟩
  (by rintro s h; cases h; decide)
example := unreadable_refused_partial sampleTexts _ _
  (config_text_round sampleTexts sampleTexts_faithful ⟨some ⟨.greedy, .intermittent (3600 * second) (60 * second), 10, some second⟩, 60 * second, none⟩
    (by rintro s h; cases h; decide))
example := unreadable_alignment sampleTexts sampleTexts_faithful Scheduler.built (by decide) (.inl "1 secnd") rfl

example := missing_alignment sampleTexts [("handoff", .null), ("min_samples", .num 10)] rfl

end Verif.Sched
