import Mathlib.Data.List.Basic
import Mathlib.Data.List.Nodup
import Verif.Der.Model
import Verif.Tracking.Lemmas
/-!
Round trips of the DER encodings.
-/
namespace Verif.Der
open Verif.Tracking (IMap)
open Verif.Spacecraft (Mode Thruster)

variable {Byte F α : Type}

/-! ### Specification -/

/-- What is read back of a value that satisfies `ok` is `f` of it, whatever follows it, and the announced length
is the number of bytes written. -/
def Trips (c : Codec Byte α) (ok : α → Prop) (f : α → α) : Prop :=
  ∀ a, ok a → (∀ rest, c.dec (c.enc a ++ rest) = some (f a, rest)) ∧ c.len a = (c.enc a).length

/-- The laws of the primitive encodings of `der`; `okF` are the numbers that its encoding of reals
preserves. -/
structure Prims.Lawful (p : Prims Byte F) (okF : F → Prop) : Prop where
  bool : Trips p.bool (fun _ => True) id
  u8 : Trips p.u8 (· < 2 ^ 8) id
  u32 : Trips p.u32 (· < 2 ^ 32) id
  i128 : Trips p.i128 (fun x => -2 ^ 127 ≤ x ∧ x < 2 ^ 127) id
  real : Trips p.real okF id
  text : Trips p.text (fun _ => True) id
  enumerated : Trips p.enumerated (· < 2 ^ 8) id
  header : Trips p.header (fun _ => True) id
  i128_ne : ∀ x, p.i128.enc x ≠ []
  enumerated_ne : ∀ x, p.enumerated.enc x ≠ []
  header_ne : ∀ n, p.header.enc n ≠ []
  /-- an integer below 128 takes the same number of bytes as 1 -/
  u8_len : ∀ n, n < 2 ^ 7 → p.u8.len n = p.u8.len 1

/-- The nanoseconds that fit in an `i128`: those of all durations of hifitime do. -/
def Ns (x : Int) : Prop := -2 ^ 127 ≤ x ∧ x < 2 ^ 127

/-- A property of the value, if there is one. -/
def OptOk (ok : α → Prop) (o : Option α) : Prop := ∀ a, o = some a → ok a

/-- A value that round trips is written by `to_der` and read back by `from_der`. -/
theorem trips_der (c : Codec Byte α) (ok : α → Prop) (f : α → α) (h : Trips c ok f) (a : α) (ha : ok a) :
    ∃ bs, c.toDer a = some bs ∧ c.fromDer bs = some (f a) := by
  refine ⟨c.enc a, by rw [Codec.toDer, if_pos (h a ha).2], ?_⟩
  have := (h a ha).1 []
  rw [List.append_nil] at this
  rw [Codec.fromDer, this]

/-- Bytes after the value are refused. -/
theorem trailing_refused (c : Codec Byte α) (ok : α → Prop) (f : α → α) (h : Trips c ok f) (a : α) (ha : ok a)
    (b : Byte) (bs : List Byte) : c.fromDer (c.enc a ++ b :: bs) = none := by
  rw [Codec.fromDer, (h a ha).1]

/-- Different values have different encodings, none of which is a prefix of the other. -/
theorem trips_injective (c : Codec Byte α) (ok : α → Prop) (h : Trips c ok id) (a b : α) (ha : ok a) (hb : ok b)
    (r s : List Byte) (he : c.enc a ++ r = c.enc b ++ s) : a = b ∧ r = s := by
  have h1 := (h a ha).1 r
  rw [he, (h b hb).1 s] at h1
  simp only [id_eq, Option.some.injEq, Prod.mk.injEq] at h1
  exact ⟨h1.1.symm, h1.2.symm⟩

/-! ### Combinators -/

theorem optDec_some (c : Codec Byte α) (ok : α → Prop) (f : α → α) (h : Trips c ok f) (o : Option α)
    (ho : OptOk ok o) (b : Bool) (hb : b = o.isSome) (rest : List Byte) :
    optDec c b (optEnc c o ++ rest) = some (o.map f, rest) := by
  subst hb
  cases o with
  | none => simp [optDec, optEnc]
  | some a => simp [optDec, optEnc, (h a (ho a rfl)).1]

theorem optLen_eq (c : Codec Byte α) (ok : α → Prop) (f : α → α) (h : Trips c ok f) (o : Option α)
    (ho : OptOk ok o) : optLen c o = (optEnc c o).length := by
  cases o with
  | none => rfl
  | some a => exact (h a (ho a rfl)).2

theorem flagged_eq (p : Prims Byte F) (c : Codec Byte α) (o : Option α) :
    flagged p c o = p.bool.enc o.isSome ++ optEnc c o := by
  cases o <;> simp [flagged, optEnc]

theorem nested_trips (p : Prims Byte F) (okF : F → Prop) (hp : p.Lawful okF) (c : Codec Byte α) (ok : α → Prop)
    (f : α → α) (h : Trips c ok f) : Trips (nested p c) ok f := by
  intro a ha
  obtain ⟨h1, h2⟩ := h a ha
  have h3 := h1 []
  rw [List.append_nil] at h3
  refine ⟨fun rest => ?_, ?_⟩
  · simp only [nested, List.append_assoc, (hp.header _ trivial).1, id_eq, Option.pure_def, Option.bind_eq_bind,
      Option.bind_some, h2]
    rw [if_neg (by simp), List.take_left', List.drop_left']
    · simp [Codec.fromDer, h3]
    · rfl
    · rfl
  · simp only [nested, List.length_append, h2, (hp.header _ trivial).2]

theorem decAll_enc (c : Codec Byte α) (ok : α → Prop) (f : α → α) (h : Trips c ok f)
    (hne : ∀ a, ok a → c.enc a ≠ []) (l : List α) (hl : ∀ a ∈ l, ok a) (fuel : Nat)
    (hf : (l.flatMap c.enc).length ≤ fuel) : decAll c fuel (l.flatMap c.enc) = some (l.map f) := by
  induction l generalizing fuel with
  | nil => simp [decAll]
  | cons a l ih =>
    obtain ⟨b, bs, hb⟩ := List.exists_cons_of_ne_nil (hne a (hl a List.mem_cons_self))
    rw [List.flatMap_cons] at hf ⊢
    have hd := (h a (hl a List.mem_cons_self)).1 (l.flatMap c.enc)
    rw [hb, List.cons_append] at hd hf ⊢
    cases fuel with
    | zero => simp at hf
    | succ fuel =>
      rw [decAll, hd]
      simp only [List.length_cons, List.length_append] at hf
      simp [ih (fun x hx => hl x (List.mem_cons_of_mem _ hx)) fuel (by omega)]

theorem sum_len (c : Codec Byte α) (ok : α → Prop) (f : α → α) (h : Trips c ok f) (l : List α)
    (hl : ∀ a ∈ l, ok a) : (l.map c.len).sum = (l.flatMap c.enc).length := by
  induction l with
  | nil => rfl
  | cons a l ih =>
    rw [List.map_cons, List.sum_cons, List.flatMap_cons, List.length_append,
      (h a (hl a List.mem_cons_self)).2, ih (fun x hx => hl x (List.mem_cons_of_mem _ hx))]

theorem seqOf_trips (p : Prims Byte F) (okF : F → Prop) (hp : p.Lawful okF) (c : Codec Byte α) (ok : α → Prop)
    (f : α → α) (h : Trips c ok f) (hne : ∀ a, ok a → c.enc a ≠ []) :
    Trips (seqOf p c) (fun l => ∀ a ∈ l, ok a) (List.map f) := by
  intro l hl
  have hs := sum_len c ok f h l hl
  refine ⟨fun rest => ?_, ?_⟩
  · simp only [seqOf, List.append_assoc, (hp.header _ trivial).1, id_eq, Option.pure_def, Option.bind_eq_bind,
      Option.bind_some, hs]
    rw [if_neg (by simp), List.take_left', List.drop_left']
    · rw [decAll_enc c ok f h hne l hl _ le_rfl]; rfl
    · rfl
    · rfl
  · simp only [seqOf, List.length_append, hs, (hp.header _ trivial).2]

theorem enum_trips (p : Prims Byte F) (okF : F → Prop) (hp : p.Lawful okF) (tag : α → Nat)
    (ofTag : Nat → Option α) (h : ∀ a, tag a < 2 ^ 8 ∧ ofTag (tag a) = some a) :
    Trips (enumCodec p tag ofTag) (fun _ => True) id := by
  intro a _
  refine ⟨fun rest => ?_, (hp.enumerated _ (h a).1).2⟩
  simp [enumCodec, (hp.enumerated _ (h a).1).1, (h a).2]

/-! ### The scheduler and the tracking configuration -/

variable {p : Prims Byte F} {okF : F → Prop}

/-- The durations of a cadence fit. -/
def CadenceOk : Cadence → Prop
  | .continuous => True
  | .intermittent on off => Ns on ∧ Ns off

/-- **C74.** A cadence is read back. -/
theorem cadence_trips (hp : p.Lawful okF) : Trips (cadenceCodec p) CadenceOk id := by
  intro c hc
  cases c with
  | continuous =>
    refine ⟨fun rest => ?_, (hp.u8 0 (by norm_num)).2⟩
    simp [cadenceCodec, Cadence.enc, Cadence.dec, (hp.u8 0 (by norm_num)).1]
  | intermittent on off =>
    refine ⟨fun rest => ?_, ?_⟩
    · simp [cadenceCodec, Cadence.enc, Cadence.dec, (hp.u8 1 (by norm_num)).1, (hp.i128 on hc.1).1,
        (hp.i128 off hc.2).1]
    · simp only [cadenceCodec, Cadence.len, Cadence.enc, List.length_append, (hp.u8 1 (by norm_num)).2,
        (hp.i128 on hc.1).2, (hp.i128 off hc.2).2]
      omega

/-- An unknown kind of cadence is an error. -/
theorem cadence_unknown (hp : p.Lawful okF) (n : Nat) (hn : 2 ≤ n) (h8 : n < 2 ^ 8) (rest : List Byte) :
    (cadenceCodec p).dec (p.u8.enc n ++ rest) = none := by
  have h0 : n ≠ 0 := by omega
  have h1 : n ≠ 1 := by omega
  simp [cadenceCodec, Cadence.dec, (hp.u8 n h8).1, h0, h1]

theorem handoff_trips (hp : p.Lawful okF) : Trips (handoffCodec p) (fun _ => True) id :=
  enum_trips p okF hp _ _ (by intro a; cases a <;> decide)

/-- The numbers of a scheduler fit. -/
def SchedulerOk (s : Scheduler) : Prop :=
  CadenceOk s.cadence ∧ s.minSamples < 2 ^ 32 ∧ OptOk Ns s.alignment

/-- **C74.** A scheduler is read back. -/
theorem scheduler_trips (hp : p.Lawful okF) : Trips (schedulerCodec p) SchedulerOk id := by
  intro s hs
  obtain ⟨hc, hm, ha⟩ := hs
  have key : Scheduler.enc p s = (handoffCodec p).enc s.handoff ++ ((cadenceCodec p).enc s.cadence ++
      (p.u32.enc s.minSamples ++ (p.bool.enc s.alignment.isSome ++ optEnc p.i128 s.alignment))) := by
    rw [Scheduler.enc]
    cases s.alignment <;> simp [optEnc]
  refine ⟨fun rest => ?_, ?_⟩
  · simp only [schedulerCodec, key, Scheduler.dec, List.append_assoc, (handoff_trips hp _ trivial).1,
      (cadence_trips hp _ hc).1, (hp.u32 _ hm).1, (hp.bool _ trivial).1, id_eq, Option.bind_eq_bind,
      Option.bind_some]
    rw [optDec_some p.i128 Ns id hp.i128 _ ha _ rfl]
    simp
  · simp only [schedulerCodec, key, List.length_append, ← (handoff_trips hp _ trivial).2,
      ← (cadence_trips hp _ hc).2, ← (hp.u32 _ hm).2, ← (hp.bool _ trivial).2,
      ← optLen_eq p.i128 Ns id hp.i128 _ ha, Scheduler.len]
    cases s.alignment <;> simp only [optLen, Option.isSome_none, Option.isSome_some] <;> omega

variable {T : Type}

/-- `From<u8>` of the time scales undoes `as u8`, and there are fewer than 128 of them. -/
def TimeScales.Lawful (ts : TimeScales T) : Prop := ∀ t, ts.ofU8 (ts.toU8 t) = t ∧ ts.toU8 t < 2 ^ 7

/-- The epochs of a strand fit. -/
def StrandOk (s : Strand T) : Prop := Ns s.start.1 ∧ Ns s.stop.1

/-- **C74.** A strand is read back, with its time scales. -/
theorem strand_trips (hp : p.Lawful okF) (ts : TimeScales T) (ht : ts.Lawful) :
    Trips (strandCodec p ts) StrandOk id := by
  rintro ⟨⟨a, ta⟩, ⟨b, tb⟩⟩ ⟨ha, hb⟩
  have h8 : ∀ t, ts.toU8 t < 2 ^ 8 := fun t => lt_trans (ht t).2 (by norm_num)
  refine ⟨fun rest => ?_, ?_⟩
  · simp [strandCodec, Strand.enc, Strand.dec, (hp.i128 a ha).1, (hp.i128 b hb).1, (hp.u8 _ (h8 _)).1,
      (ht _).1]
  · simp only [strandCodec, Strand.len, Strand.enc, List.length_append, (hp.i128 a ha).2, (hp.i128 b hb).2,
      ← (hp.u8 _ (h8 ta)).2, ← (hp.u8 _ (h8 tb)).2, hp.u8_len _ (ht ta).2, hp.u8_len _ (ht tb).2]
    omega

/-- The numbers of a tracking configuration fit. -/
def TrkConfigOk (c : TrkConfig T) : Prop :=
  OptOk SchedulerOk c.scheduler ∧ Ns c.sampling ∧ OptOk (fun l => ∀ s ∈ l, StrandOk s) c.strands

/-- **C74.** A tracking configuration is read back. -/
theorem trkConfig_trips (hp : p.Lawful okF) (ts : TimeScales T) (ht : ts.Lawful) :
    Trips (trkConfigCodec p ts) TrkConfigOk id := by
  rintro ⟨sch, sam, str⟩ ⟨h1, h2, h3⟩
  have hseq := seqOf_trips p okF hp (strandCodec p ts) StrandOk id (strand_trips hp ts ht) (by
    intro a _ h
    simp only [strandCodec, Strand.enc, List.append_eq_nil_iff] at h
    exact hp.i128_ne _ h.1)
  refine ⟨fun rest => ?_, ?_⟩
  · simp only [trkConfigCodec, TrkConfig.enc, TrkConfig.dec, flagged_eq, List.append_assoc,
      (hp.bool _ trivial).1, id_eq, Option.bind_eq_bind, Option.bind_some]
    rw [optDec_some _ SchedulerOk id (scheduler_trips hp) _ h1 _ rfl]
    simp only [Option.bind_some, (hp.i128 _ h2).1, (hp.bool _ trivial).1, id_eq]
    rw [optDec_some _ _ _ hseq _ h3 _ rfl]
    simp
  · simp only [trkConfigCodec, TrkConfig.enc, TrkConfig.len, flagged_eq, List.length_append,
      ← (hp.bool _ trivial).2, ← (hp.i128 _ h2).2, ← optLen_eq _ _ _ hseq _ h3,
      ← optLen_eq _ _ _ (scheduler_trips hp) _ h1]
    omega

/-! ### The noises -/

/-- The numbers of a white noise are preserved. -/
def WhiteOk (okF : F → Prop) (w : WhiteNoise F) : Prop := okF w.mean ∧ okF w.sigma

theorem white_trips (hp : p.Lawful okF) : Trips (whiteCodec p) (WhiteOk okF) id := by
  refine nested_trips p okF hp _ _ _ ?_
  rintro ⟨m, s⟩ ⟨hm, hs⟩
  refine ⟨fun rest => ?_, ?_⟩
  · simp [whiteFields, (hp.real m hm).1, (hp.real s hs).1]
  · simp [whiteFields, (hp.real m hm).2, (hp.real s hs).2]

/-- The numbers of a Gauss Markov process are preserved. -/
def GmOk (okF : F → Prop) (g : GaussMarkov F) : Prop := Ns g.tau ∧ okF g.processNoise ∧ OptOk okF g.constant

/-- A process that has not been sampled yet. -/
def GaussMarkov.fresh (g : GaussMarkov F) : GaussMarkov F := ⟨g.tau, g.processNoise, g.constant, none, none⟩

/-- A Gauss Markov process is read back as if it had not been sampled yet. -/
theorem gaussMarkov_trips (hp : p.Lawful okF) : Trips (gaussMarkovCodec p) (GmOk okF) GaussMarkov.fresh := by
  rintro ⟨tau, pn, c, pe, is⟩ ⟨h1, h2, h3⟩
  refine ⟨fun rest => ?_, ?_⟩
  · simp only [gaussMarkovCodec, GaussMarkov.enc, GaussMarkov.dec, flagged_eq, List.append_assoc,
      (hp.i128 _ h1).1, (hp.real _ h2).1, (hp.bool _ trivial).1, id_eq, Option.bind_eq_bind, Option.bind_some]
    rw [optDec_some _ _ _ hp.real _ h3 _ rfl]
    simp [GaussMarkov.fresh]
  · simp only [gaussMarkovCodec, GaussMarkov.enc, GaussMarkov.len, flagged_eq, List.length_append,
      ← (hp.i128 _ h1).2, ← (hp.real _ h2).2, ← (hp.bool _ trivial).2, ← optLen_eq _ _ _ hp.real _ h3]
    cases c <;> simp [optLen] <;> omega

/-- The numbers of a noise are preserved. -/
def NoiseOk (okF : F → Prop) (n : StochasticNoise F) : Prop :=
  OptOk (WhiteOk okF) n.whiteNoise ∧ OptOk (GmOk okF) n.bias

/-- A noise whose bias has not been sampled yet. -/
def StochasticNoise.fresh (n : StochasticNoise F) : StochasticNoise F :=
  ⟨n.whiteNoise, n.bias.map GaussMarkov.fresh⟩

/-- A noise is read back as if its bias had not been sampled yet. -/
theorem noise_trips (hp : p.Lawful okF) : Trips (noiseCodec p) (NoiseOk okF) StochasticNoise.fresh := by
  rintro ⟨w, b⟩ ⟨h1, h2⟩
  have hfl : (⟨w, b⟩ : StochasticNoise F).flags < 2 ^ 8 := by
    cases w <;> cases b <;> simp [StochasticNoise.flags]
  have hw : ((⟨w, b⟩ : StochasticNoise F).flags &&& (1 <<< 0) != 0) = w.isSome := by
    cases w <;> cases b <;> simp [StochasticNoise.flags]
  have hb : ((⟨w, b⟩ : StochasticNoise F).flags &&& (1 <<< 1) != 0) = b.isSome := by
    cases w <;> cases b <;> simp [StochasticNoise.flags]
  refine ⟨fun rest => ?_, ?_⟩
  · simp only [noiseCodec, List.append_assoc, (hp.u8 _ hfl).1, id_eq, Option.bind_eq_bind, Option.bind_some]
    rw [optDec_some _ _ _ (white_trips hp) _ h1 _ hw]
    simp only [Option.bind_some]
    rw [optDec_some _ _ _ (gaussMarkov_trips hp) _ h2 _ hb]
    simp [StochasticNoise.fresh]
  · simp only [noiseCodec, List.length_append, ← (hp.u8 _ hfl).2, ← optLen_eq _ _ _ (white_trips hp) _ h1,
      ← optLen_eq _ _ _ (gaussMarkov_trips hp) _ h2]
    omega

/-- **C156, refuted in part.** A noise is read back as it was exactly when its bias, if any, has not been sampled:
the state of a running process is lost.
Missing: the noises sampled before. -/
theorem noise_preserved_iff_partial (n : StochasticNoise F) :
    n.fresh = n ↔ ∀ g, n.bias = some g → g.prevEpoch = none ∧ g.initSample = none := by
  obtain ⟨w, b⟩ := n
  cases b with
  | none => simp [StochasticNoise.fresh]
  | some g =>
    obtain ⟨tau, pn, c, pe, is⟩ := g
    simp [StochasticNoise.fresh, GaussMarkov.fresh, eq_comm]

/-! ### The ground station -/

theorem msrType_trips (hp : p.Lawful okF) : Trips (msrTypeCodec p) (fun _ => True) id :=
  enum_trips p okF hp _ _ (by intro a; cases a <;> decide)

theorem pair_trips (hp : p.Lawful okF) :
    Trips (pairCodec p) (fun x => NoiseOk okF x.2) (fun x => (x.1, x.2.fresh)) := by
  refine nested_trips p okF hp _ _ _ ?_
  rintro ⟨t, n⟩ h
  refine ⟨fun rest => ?_, ?_⟩
  · simp [pairFields, (msrType_trips hp t trivial).1, (noise_trips hp n h).1]
  · simp [pairFields, (msrType_trips hp t trivial).2, (noise_trips hp n h).2]

theorem setOf_nodup (l : List MsrType) (hl : l.Nodup) : setOf l = l := by
  have key : ∀ (l acc : List MsrType), (acc ++ l).Nodup →
      l.foldl (fun s t => if t ∈ s then s else s ++ [t]) acc = acc ++ l := by
    intro l
    induction l with
    | nil => intro acc _; simp
    | cons t l ih =>
      intro acc h
      have ht : t ∉ acc := by
        rw [List.nodup_append] at h
        intro hm
        exact h.2.2 t hm t List.mem_cons_self rfl
      rw [List.foldl_cons, if_neg ht, ih (acc ++ [t]) (by simpa using h)]
      simp
  simpa [setOf] using key l [] (by simpa using hl)

theorem insert_new {K V : Type} [DecidableEq K] (m : IMap K V) (k : K) (v : V) (h : k ∉ m.map Prod.fst) :
    Tracking.insert m k v = m ++ [(k, v)] := by
  induction m with
  | nil => rfl
  | cons e m ih =>
    obtain ⟨k', v'⟩ := e
    simp only [List.map_cons, List.mem_cons, not_or] at h
    rw [Tracking.insert, if_neg (fun h' => h.1 h'.symm), ih h.2]
    rfl

theorem mapOf_nodup (l : List (MsrType × StochasticNoise F)) (hl : (l.map Prod.fst).Nodup) : mapOf l = l := by
  have key : ∀ (l acc : List (MsrType × StochasticNoise F)), ((acc ++ l).map Prod.fst).Nodup →
      l.foldl (fun m x => Tracking.insert m x.1 x.2) acc = acc ++ l := by
    intro l
    induction l with
    | nil => intro acc _; simp
    | cons x l ih =>
      intro acc h
      have ht : x.1 ∉ acc.map Prod.fst := by
        rw [List.map_append, List.nodup_append] at h
        intro hm
        exact h.2.2 _ hm _ (by simp) rfl
      rw [List.foldl_cons, insert_new _ _ _ ht, ih (acc ++ [(x.1, x.2)]) (by simpa using h)]
      simp
  simpa [mapOf] using key l [] (by simpa using hl)

variable {Loc : Type}

/-- The numbers of a station are preserved, its types and the keys of its noises are distinct (they are sets). -/
def StationOk (okF : F → Prop) (okL : Loc → Prop) (s : Station F Loc) : Prop :=
  okL s.location ∧ s.types.Nodup ∧ OptOk Ns s.integrationTime ∧ OptOk (NoiseOk okF) s.timestampNoise ∧
    OptOk (fun m => (m.map Prod.fst).Nodup ∧ ∀ x ∈ m, NoiseOk okF x.2) s.noises

/-- A station whose noises have not been sampled yet. -/
def Station.fresh (s : Station F Loc) : Station F Loc :=
  ⟨s.name, s.location, s.types, s.integrationTime, s.lightTime, s.timestampNoise.map StochasticNoise.fresh,
    s.noises.map (List.map (fun x => (x.1, x.2.fresh)))⟩

/-- **C156.** A ground station is read back, as if its noises had not been sampled yet. -/
theorem station_trips (hp : p.Lawful okF) (loc : Codec Byte Loc) (okL : Loc → Prop) (hl : Trips loc okL id) :
    Trips (stationCodec p loc) (StationOk okF okL) Station.fresh := by
  rintro ⟨name, l, types, it, lt, tn, ns⟩ ⟨h1, h2, h3, h4, h5⟩
  have ht := seqOf_trips p okF hp (msrTypeCodec p) _ id (msrType_trips hp) (by
    intro a _ h
    exact hp.enumerated_ne _ h) types (fun _ _ => trivial)
  have hpairs := seqOf_trips p okF hp (pairCodec p) _ _ (pair_trips hp) (by
    intro a _ h
    simp only [pairCodec, nested, List.append_eq_nil_iff] at h
    exact hp.header_ne _ h.1)
  have h5' : OptOk (fun m : List (MsrType × StochasticNoise F) => ∀ x ∈ m, NoiseOk okF x.2) ns :=
    fun m hm => (h5 m hm).2
  generalize hs : (⟨name, l, types, it, lt, tn, ns⟩ : Station F Loc) = s
  have hfl : s.flags < 2 ^ 8 := by
    subst hs; cases it <;> cases tn <;> cases ns <;> simp [Station.flags]
  have f0 : (s.flags &&& (1 <<< 0) != 0) = it.isSome := by
    subst hs; cases it <;> cases tn <;> cases ns <;> simp [Station.flags]
  have f1 : (s.flags &&& (1 <<< 1) != 0) = tn.isSome := by
    subst hs; cases it <;> cases tn <;> cases ns <;> simp [Station.flags]
  have f2 : (s.flags &&& (1 <<< 2) != 0) = ns.isSome := by
    subst hs; cases it <;> cases tn <;> cases ns <;> simp [Station.flags]
  refine ⟨fun rest => ?_, ?_⟩
  · simp only [stationCodec, List.append_assoc, (hp.text _ trivial).1, id_eq, Option.bind_eq_bind,
      Option.bind_some]
    have e1 : s.location = l := by rw [← hs]
    have e2 : s.types = types := by rw [← hs]
    have e3 : s.integrationTime = it := by rw [← hs]
    have e4 : s.timestampNoise = tn := by rw [← hs]
    have e5 : s.noises = ns := by rw [← hs]
    rw [e1, e2, e3, e4, e5, (hl l h1).1]
    simp only [Option.bind_some, id_eq]
    rw [ht.1]
    simp only [Option.bind_some, (hp.bool _ trivial).1, (hp.u8 _ hfl).1, id_eq]
    rw [optDec_some _ _ _ hp.i128 _ h3 _ f0]
    simp only [Option.bind_some]
    rw [optDec_some _ _ _ (noise_trips hp) _ h4 _ f1]
    simp only [Option.bind_some]
    rw [optDec_some _ _ _ hpairs _ h5' _ f2]
    simp only [Option.bind_some, Option.pure_def, Option.some.injEq, Prod.mk.injEq, and_true]
    subst hs
    simp only [Station.fresh, Station.mk.injEq, true_and]
    refine ⟨by simp [setOf_nodup types h2], by simp, ?_⟩
    cases ns with
    | none => rfl
    | some m =>
      simp only [Option.map_some, Option.some.injEq]
      refine mapOf_nodup _ ?_
      rw [List.map_map]
      exact (h5 m rfl).1
  · simp only [stationCodec, List.length_append, ← (hp.text _ trivial).2, ← (hp.bool _ trivial).2,
      ← (hp.u8 _ hfl).2]
    subst hs
    simp only [← (hl l h1).2, ← ht.2, ← optLen_eq _ _ _ hp.i128 _ h3, ← optLen_eq _ _ _ (noise_trips hp) _ h4,
      ← optLen_eq _ _ _ hpairs _ h5']
    omega

/-! ### The spacecraft -/

theorem thruster_trips (hp : p.Lawful okF) :
    Trips (thrusterCodec p) (fun t => okF t.thrust ∧ okF t.isp) id := by
  rintro ⟨a, b⟩ ⟨ha, hb⟩
  refine ⟨fun rest => ?_, ?_⟩
  · simp [thrusterCodec, (hp.real a ha).1, (hp.real b hb).1]
  · simp [thrusterCodec, (hp.real a ha).2, (hp.real b hb).2]

theorem mode_trips (hp : p.Lawful okF) : Trips (enumCodec p Mode.tag modeOfTag) (fun _ => True) id :=
  enum_trips p okF hp _ _ (by intro a; cases a <;> decide)

variable {Orb Mas Srp Drg Dir Stm : Type}

/-- A spacecraft without its thrust direction and its state transition matrix. -/
def Sc.bare (s : Sc F Orb Mas Srp Drg Dir Stm) : Sc F Orb Mas Srp Drg Dir Stm :=
  ⟨s.orbit, s.mass, s.srp, s.drag, s.thruster, s.mode, none, none⟩

/-- **C157.** A spacecraft is read back without its thrust direction and its state transition matrix. -/
theorem sc_trips (hp : p.Lawful okF) (orb : Codec Byte Orb) (mas : Codec Byte Mas) (srp : Codec Byte Srp)
    (drg : Codec Byte Drg) (okO : Orb → Prop) (okM : Mas → Prop) (okS : Srp → Prop) (okD : Drg → Prop)
    (ho : Trips orb okO id) (hm : Trips mas okM id) (hs : Trips srp okS id) (hd : Trips drg okD id) :
    Trips (scCodec p orb mas srp drg : Codec Byte (Sc F Orb Mas Srp Drg Dir Stm))
      (fun s => okO s.orbit ∧ okM s.mass ∧ okS s.srp ∧ okD s.drag ∧
        OptOk (fun t => okF t.thrust ∧ okF t.isp) s.thruster) Sc.bare := by
  rintro ⟨o, m, r, d, th, mode, dir, stm⟩ ⟨h1, h2, h3, h4, h5⟩
  refine ⟨fun rest => ?_, ?_⟩
  · simp only [scCodec, flagged_eq, List.append_assoc, (ho _ h1).1, (hm _ h2).1, (hs _ h3).1, (hd _ h4).1,
      (mode_trips hp _ trivial).1, (hp.bool _ trivial).1, id_eq, Option.bind_eq_bind, Option.bind_some]
    rw [optDec_some _ _ _ (thruster_trips hp) _ h5 _ rfl]
    simp [Sc.bare]
  · simp only [scCodec, flagged_eq, List.length_append, ← (ho _ h1).2, ← (hm _ h2).2, ← (hs _ h3).2,
      ← (hd _ h4).2, ← (mode_trips hp _ trivial).2, ← (hp.bool _ trivial).2,
      ← optLen_eq _ _ _ (thruster_trips hp) _ h5]
    omega

/-- **C157, refuted in part.** The spacecraft read back is the one that was written exactly when it has neither a
thrust direction nor a state transition matrix. -/
theorem sc_preserved_iff (s : Sc F Orb Mas Srp Drg Dir Stm) :
    s.bare = s ↔ s.thrustDirection = none ∧ s.stm = none := by
  obtain ⟨o, m, r, d, th, mode, dir, stm⟩ := s
  simp [Sc.bare, eq_comm]

/-! ### The hypotheses are met -/

/-- Symbols that stand for the encodings of the primitives, four of them for an integer of 128 bits. -/
inductive Tok where
  | bool (b : Bool) | u8 (n : Nat) | u32 (n : Nat) | int (x : Int) | real (x : Rat) | text (s : String)
  | enum (n : Nat) | header (n : Nat)
deriving DecidableEq

/-- Encodings with one symbol for each primitive. -/
def demoPrims : Prims Tok Rat where
  bool := ⟨fun b => [.bool b], fun _ => 1, fun | .bool b :: r => some (b, r) | _ => none⟩
  u8 := ⟨fun b => [.u8 b], fun _ => 1, fun | .u8 b :: r => some (b, r) | _ => none⟩
  u32 := ⟨fun b => [.u32 b], fun _ => 1, fun | .u32 b :: r => some (b, r) | _ => none⟩
  i128 := ⟨fun b => [.int b], fun _ => 1, fun | .int b :: r => some (b, r) | _ => none⟩
  real := ⟨fun b => [.real b], fun _ => 1, fun | .real b :: r => some (b, r) | _ => none⟩
  text := ⟨fun b => [.text b], fun _ => 1, fun | .text b :: r => some (b, r) | _ => none⟩
  enumerated := ⟨fun b => [.enum b], fun _ => 1, fun | .enum b :: r => some (b, r) | _ => none⟩
  header := ⟨fun b => [.header b], fun _ => 1, fun | .header b :: r => some (b, r) | _ => none⟩

theorem demo_lawful : demoPrims.Lawful (fun _ => True) := by
  constructor <;> first
    | exact fun a _ => ⟨fun rest => rfl, rfl⟩
    | exact fun _ _ => rfl
    | exact fun a h => by cases h

/-- Ten time scales. -/
def demoScales : TimeScales (Fin 10) := ⟨fun t => t.val, fun n => if h : n < 10 then ⟨n, h⟩ else 0⟩

theorem demo_scales : demoScales.Lawful := by
  intro t
  refine ⟨?_, lt_of_lt_of_le t.isLt (by norm_num)⟩
  simp [demoScales]

example := trips_der _ _ _ (trkConfig_trips demo_lawful demoScales demo_scales)
  ⟨some ⟨.greedy, .intermittent 10 20, 5, some 3⟩, 60, some [⟨(1, 2), (3, 4)⟩, ⟨(5, 6), (7, 8)⟩]⟩
  ⟨by rintro a ⟨rfl⟩; exact ⟨⟨by constructor <;> norm_num, by constructor <;> norm_num⟩, by norm_num,
      by rintro b ⟨rfl⟩; constructor <;> norm_num⟩, by constructor <;> norm_num, by
    rintro a ⟨rfl⟩ s hs
    simp only [List.mem_cons, List.not_mem_nil, or_false] at hs
    rcases hs with rfl | rfl <;> exact ⟨by constructor <;> norm_num, by constructor <;> norm_num⟩⟩

example := trips_injective _ _ (cadence_trips demo_lawful) .continuous (.intermittent 1 2) trivial
  ⟨by constructor <;> norm_num, by constructor <;> norm_num⟩
example := cadence_unknown demo_lawful 7 (by norm_num) (by norm_num)
example := trailing_refused _ _ _ (thruster_trips demo_lawful) ⟨1, 2⟩ ⟨trivial, trivial⟩ (.u8 0) []

/-- A running process is read back as a fresh one. -/
example : (noiseCodec demoPrims).fromDer ((noiseCodec demoPrims).enc ⟨some ⟨0, 1⟩, some ⟨5, 1, some 2, some 7, some 3⟩⟩)
    = some ⟨some ⟨0, 1⟩, some ⟨5, 1, some 2, none, none⟩⟩ := rfl

example := trips_der _ _ _ (station_trips demo_lawful demoPrims.real _ demo_lawful.real)
  ⟨"Madrid", 7, [.range, .doppler], some 60, true, none, some [(.doppler, ⟨some ⟨0, 1⟩, none⟩), (.range, ⟨none, none⟩)]⟩
  ⟨trivial, by decide, by rintro a ⟨rfl⟩; constructor <;> norm_num, by rintro a ⟨⟩, by
    rintro a ⟨rfl⟩
    refine ⟨by decide, ?_⟩
    intro x hx
    simp only [List.mem_cons, List.not_mem_nil, or_false] at hx
    rcases hx with rfl | rfl
    · exact ⟨by rintro a ⟨rfl⟩; exact ⟨trivial, trivial⟩, by rintro a ⟨⟩⟩
    · exact ⟨by rintro a ⟨⟩, by rintro a ⟨⟩⟩⟩

example := trips_der _ _ _ (sc_trips (Dir := Nat) (Stm := Nat) demo_lawful demoPrims.real demoPrims.real
    demoPrims.real demoPrims.real _ _ _ _ demo_lawful.real demo_lawful.real demo_lawful.real demo_lawful.real)
  ⟨1, 2, 3, 4, some ⟨5, 6⟩, .inhibit, some 1, none⟩
  ⟨trivial, trivial, trivial, trivial, by rintro a ⟨rfl⟩; exact ⟨trivial, trivial⟩⟩

example := (noise_preserved_iff_partial (⟨none, some ⟨5, 1, some 2, none, none⟩⟩ : StochasticNoise Rat)).2 (by rintro g ⟨rfl⟩; exact ⟨rfl, rfl⟩)

end Verif.Der
