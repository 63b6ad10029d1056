import Verif.Util.Sort
import Verif.Tracking.Model
/-!
Model of the tracking arc simulator: nyx-core/src/od/simulator/{arc,scheduler,trkconfig}.rs.

Epochs and durations are integers (nanoseconds, one time scale). A `BTreeMap` is the list of its
entries in key order (`Tracking.IMap`, whose `get` is the lookup). The random number generator, the
devices and the visibility finder of ANISE are parameters.
-/
namespace Verif.Sched
open Verif.Util
open Verif.Tracking (IMap Msr get sort)

/-- `Handoff`. scheduler.rs:33-45. -/
inductive Handoff where
  | eager | greedy | overlap
  deriving DecidableEq, Repr

/-- `Cadence`. scheduler.rs:83-101. -/
inductive Cadence where
  | continuous
  | intermittent (on off : Int)
  deriving DecidableEq, Repr

/-- `Scheduler`. scheduler.rs:60-80. -/
structure Scheduler where
  handoff : Handoff
  cadence : Cadence
  minSamples : Nat
  alignment : Option Int
  deriving DecidableEq, Repr

/-- `Strand`. trkconfig.rs:260-268. -/
structure Strand where
  start : Int
  stop : Int
  deriving DecidableEq, Repr

/-- `Strand::contains`. trkconfig.rs:322-324. -/
def Strand.contains (s : Strand) (e : Int) : Prop := s.start ≤ e ∧ e ≤ s.stop

/-- `Strand::duration`. trkconfig.rs:327-329. -/
def Strand.duration (s : Strand) : Int := s.stop - s.start

/-- `TrkConfig`. trkconfig.rs:38-56. -/
structure Cfg where
  scheduler : Option Scheduler
  sampling : Int
  strands : Option (List Strand)
  deriving DecidableEq, Repr

/-- One second, in nanoseconds. -/
def second : Int := 1000000000

/-- `Scheduler::builder().build()`: the defaults of the builder. scheduler.rs:60-80. -/
def Scheduler.built : Scheduler := ⟨.eager, .continuous, 10, some second⟩

/-- `impl Default for TrkConfig`. trkconfig.rs:248-258. -/
def Cfg.default : Cfg := ⟨some Scheduler.built, 60 * second, none⟩

/-- `TrkConfig::from_sample_rate`. trkconfig.rs:174-180. -/
def Cfg.fromSampleRate (d : Int) : Cfg :=
  ⟨some { Scheduler.built with alignment := some d }, d, none⟩

/-- The loop on the strands in `sanity_check`. trkconfig.rs:197-211. -/
def strandsOk (sampling : Int) : List Strand → Bool
  | [] => true
  | s :: l =>
    if s.duration < sampling then false
    else if s.duration < 0 then false
    else strandsOk sampling l

/-- `TrkConfig::sanity_check` succeeds. trkconfig.rs:183-220. -/
def Cfg.sane (c : Cfg) : Bool :=
  if c.strands.isSome && c.scheduler.isSome then false
  else match c.strands with
    | some l => if l.isEmpty && c.scheduler.isNone then false else strandsOk c.sampling l
    | none => c.scheduler.isSome

/-! ### Construction: the common sampling rate -/

/-- The sampling rates that `with_rng` collects: those of the devices that have a configuration
which passes the check. arc.rs:89-103. `truncated_nanoseconds` is the identity up to 292 years. -/
def rates {N D : Type} [DecidableEq N] (devices : IMap N D) (configs : IMap N Cfg) : List Int :=
  devices.filterMap fun e => (get configs e.1).bind fun c => if c.sane then some c.sampling else none

/-- The step of the time series of `with_rng`, `none` when it returns an error. arc.rs:105-121.
`num::integer::gcd` is the (nonnegative) greatest common divisor. -/
def commonRate : List Int → Option Int
  | [] => none
  | r :: l => some ((r :: l).foldl (fun a b => (Int.gcd a b : Int)) r)

/-! ### Building the strands of one tracker -/

/-- hifitime `Duration::floor` for a positive step. -/
def floorTo (t d : Int) : Int := t - t % d

/-- hifitime `Epoch::round` for a positive step: the nearest multiple of the step since the
reference epoch of the time scale, upward when halfway. -/
def roundTo (t d : Int) : Int :=
  if t - floorTo t d < (floorTo t d + d) - t then floorTo t d else floorTo t d + d

/-- The alignment of a strand. arc.rs:355-359. -/
def align (a : Option Int) (s : Strand) : Strand :=
  match a with
  | some d => ⟨roundTo s.start d, roundTo s.stop d⟩
  | none => s

/-- The start is pushed after the off time of the previous strand. arc.rs:362-367. -/
def pushed (prev : Option Strand) (off : Int) (r : Strand) : Option Strand :=
  match prev with
  | some p => if p.stop + off > r.start then some ⟨p.stop + off, r.stop⟩ else none
  | none => none

/-- The strand does not last longer than the on time. arc.rs:378-381. -/
def capped (on : Int) (r : Strand) : Strand :=
  if r.stop - r.start > on then ⟨r.start, r.start + on⟩ else r

/-- One visibility arc offered to the schedule of a tracker. arc.rs:338-392. -/
def offer (s : Scheduler) (sampling : Int) (built : List Strand) (arc : Strand) : List Strand :=
  if arc.stop - arc.start < sampling * s.minSamples then built
  else
    let r := align s.alignment arc
    match s.cadence with
    | .continuous => built ++ [r]
    | .intermittent on off =>
      match pushed built.getLast? off r with
      | some r' => if r'.start > arc.stop then built else built ++ [capped on r']
      | none => built ++ [capped on r]

/-- All the strands of one tracker. arc.rs:338-392. -/
def strandsOf (s : Scheduler) (sampling : Int) (arcs : List Strand) : List Strand :=
  arcs.foldl (offer s sampling) []

/-! ### The schedule -/

/-- `get_mut(name)` followed by an update of the configuration. -/
def modify {N V : Type} [DecidableEq N] (m : IMap N V) (n : N) (f : V → V) : IMap N V :=
  m.map fun e => if e.1 = n then (e.1, f e.2) else e

/-- The loop on the devices of `generate_schedule`. arc.rs:314-399. `vis n sampling` is
`almanac.report_visibility_arcs` for the location of the device `n` over the trajectory, `none` when
it fails. Simplified: a failure to push a location in the dataset (arc.rs:300-308) is a failure of
`vis`. -/
def buildAll {N : Type} [DecidableEq N] (vis : N → Int → Option (List Strand))
    (configs : IMap N Cfg) : List N → IMap N Cfg → Option (IMap N Cfg)
  | [], m => some m
  | n :: ns, m =>
    match get configs n with
    | some c =>
      match c.scheduler with
      | some s =>
        match vis n c.sampling with
        | some arcs => buildAll vis configs ns
            (modify m n fun c' => ⟨none, c'.sampling, some (strandsOf s c.sampling arcs)⟩)
        | none => none
      | none => buildAll vis configs ns m
    | none => buildAll vis configs ns m

/-- An entry of `cfg_as_vec`: the tracker, the position among its strands, the strand. -/
structure Entry (N : Type) where
  name : N
  pos : Nat
  strand : Strand
  deriving DecidableEq

/-- The entries of one tracker. arc.rs:402-408. -/
def entriesOf {N : Type} (e : N × Cfg) : List (Entry N) :=
  match e.2.strands with
  | some l => l.zipIdx.map fun p => ⟨e.1, p.2, p.1⟩
  | none => []

/-- `cfg_as_vec` after the sort: all strands by start. arc.rs:400-410. -/
def snapshot {N : Type} (m : IMap N Cfg) : List (Entry N) :=
  sortBy (fun e => e.strand.start) (m.flatMap entriesOf)

/-- `strands[pos].start = v`. arc.rs:422. -/
def setStart {N : Type} [DecidableEq N] (m : IMap N Cfg) (n : N) (i : Nat) (v : Int) : IMap N Cfg :=
  modify m n fun c => { c with strands := c.strands.map fun l => l.modify i fun s => ⟨v, s.stop⟩ }

/-- `strands[pos].end = v`. arc.rs:429. -/
def setStop {N : Type} [DecidableEq N] (m : IMap N Cfg) (n : N) (i : Nat) (v : Int) : IMap N Cfg :=
  modify m n fun c => { c with strands := c.strands.map fun l => l.modify i fun s => ⟨s.start, v⟩ }

/-- The sampling of a tracker in the built configurations. -/
def samplingOf {N : Type} [DecidableEq N] (m : IMap N Cfg) (n : N) : Int :=
  match get m n with
  | some c => c.sampling
  | none => 0

/-- The handoff policy of a tracker in the configurations before the schedule is built. -/
def handoffOf {N : Type} [DecidableEq N] (configs : IMap N Cfg) (n : N) : Option Handoff :=
  (get configs n).bind fun c => c.scheduler.map Scheduler.handoff

/-- The body of the handoff loop for a strand and the next one. arc.rs:414-431. -/
def handPair {N : Type} [DecidableEq N] (configs m : IMap N Cfg) (a b : Entry N) : IMap N Cfg :=
  match handoffOf configs a.name with
  | some h =>
    if h = .greedy ∧ a.strand.stop ≥ b.strand.start then
      setStart m b.name b.pos (a.strand.stop + samplingOf m b.name)
    else if h = .eager ∧ a.strand.stop ≥ b.strand.start then
      setStop m a.name a.pos (b.strand.start - samplingOf m a.name)
    else m
  | none => m

/-- The handoff loop. arc.rs:411-437. -/
def handLoop {N : Type} [DecidableEq N] (configs : IMap N Cfg) :
    List (Entry N) → IMap N Cfg → IMap N Cfg
  | a :: b :: l, m => handLoop configs (b :: l) (handPair configs m a b)
  | _, m => m

/-- Outcome of `generate_schedule`. -/
inductive Res (α : Type) where
  | ok (a : α) | err | panic

/-- `generate_schedule`. arc.rs:293-440. `checked`: the build checks integer overflow (`len() - 1`
of an empty vector, arc.rs:412, panics; otherwise it wraps and the loop is empty). -/
def generateSchedule {N D : Type} [DecidableEq N] (checked : Bool)
    (vis : N → Int → Option (List Strand)) (devices : IMap N D) (configs : IMap N Cfg) :
    Res (IMap N Cfg) :=
  match buildAll vis configs (devices.map Prod.fst) configs with
  | some m =>
    if checked && (snapshot m).isEmpty then .panic
    else .ok (handLoop configs (snapshot m) m)
  | none => .err

/-! ### The measurements -/

/-- What a call to `measure` gives: an error, no visibility, or a measurement. -/
inductive Shot (M : Type) where
  | fail | hidden | seen (m : M)

/-- The loop on the epochs of one strand: `TimeSeries::inclusive` from `cur` by `step` up to `stop`,
left at the first error. arc.rs:203-229. `none`: out of fuel. -/
def strandLoop {S M : Type} (measure : S → Int → S × Shot M) (stop step : Int) :
    Nat → Int → S → List M → Option (S × List M)
  | 0, _, _, _ => none
  | f + 1, cur, s, acc =>
    if cur > stop then some (s, acc)
    else match measure s cur with
      | (s', .fail) => some (s', acc)
      | (s', .hidden) => strandLoop measure stop step f (cur + step) s' acc
      | (s', .seen x) => strandLoop measure stop step f (cur + step) s' (acc ++ [x])

/-- The loop on the strands of one device. arc.rs:199-229. -/
def strandsLoop {S M : Type} (measure : S → Int → S × Shot M) (fuel : Nat) (step : Int) :
    List Strand → S → List M → Option (S × List M)
  | [], s, acc => some (s, acc)
  | st :: l, s, acc =>
    match strandLoop measure st.stop step fuel st.start s acc with
    | some (s', acc') => strandsLoop measure fuel step l s' acc'
    | none => none

/-- Outcome of `generate_measurements`: the arc, an error, or no result within the fuel. -/
inductive Gen (α : Type) where
  | ok (a : α) | err | loops

/-- The loop on the devices. arc.rs:180-242. The state `S` of the simulator holds the devices (their
noise processes) and the generator: `measure n` is `device.measure` for the device of name `n`. -/
def devicesLoop {N S M : Type} [DecidableEq N] (measure : N → S → Int → S × Shot M) (fuel : Nat)
    (configs : IMap N Cfg) : List N → S → List M → Gen (S × List M)
  | [], s, acc => .ok (s, acc)
  | n :: ns, s, acc =>
    match get configs n with
    | some c =>
      match c.strands with
      | some l =>
        match strandsLoop (measure n) fuel c.sampling l s acc with
        | some (s', acc') => devicesLoop measure fuel configs ns s' acc'
        | none => .loops
      | none => if c.scheduler.isSome then .err else devicesLoop measure fuel configs ns s acc
    | none => devicesLoop measure fuel configs ns s acc

/-- `generate_measurements`: all devices, then the sort of the arc. arc.rs:174-256. -/
def generateMeasurements {N S K : Type} [LinearOrder N] [DecidableEq K]
    (srt : List (Msr N K) → List (Msr N K)) (measure : N → S → Int → S × Shot (Msr N K)) (fuel : Nat)
    (devices : List N) (configs : IMap N Cfg) (s : S) : Gen (List (Msr N K)) :=
  match devicesLoop measure fuel configs devices s [] with
  | .ok (_, l) => .ok (sort srt l)
  | .err => .err
  | .loops => .loops

end Verif.Sched
