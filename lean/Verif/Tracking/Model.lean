import Mathlib.Order.Defs.LinearOrder
import Mathlib.Data.Rat.Floor
/-!
Model of tracking data arcs: nyx-core/src/od/msr/trackingdata/mod.rs and
nyx-core/src/od/msr/measurement.rs.

Epochs and durations are integers (nanoseconds), measurement values are rationals, a measurement
type is any type with decidable equality, a tracker name any linearly ordered type (Rust compares
strings lexicographically, a linear order).
-/
namespace Verif.Tracking

/-! ### Insertion ordered maps (the `indexmap` crate) -/

/-- `IndexMap<K, V>`: entries in insertion order. -/
abbrev IMap (K V : Type) := List (K × V)

/-- `IndexMap::get`. -/
def get {K V : Type} [DecidableEq K] : IMap K V → K → Option V
  | [], _ => none
  | (k', v) :: l, k => if k' = k then some v else get l k

/-- `IndexMap::insert`: overwrite in place, else append. -/
def insert {K V : Type} [DecidableEq K] : IMap K V → K → V → IMap K V
  | [], k, v => [(k, v)]
  | (k', v') :: l, k, v => if k' = k then (k', v) :: l else (k', v') :: insert l k v

/-- `IndexMap::extend`. -/
def extend {K V : Type} [DecidableEq K] (m : IMap K V) (es : List (K × V)) : IMap K V :=
  es.foldl (fun m e => insert m e.1 e.2) m

/-! ### Measurements -/

/-- `Measurement`. measurement.rs:30-43. -/
structure Msr (T K : Type) where
  tracker : T
  epoch : Int
  data : IMap K Rat
  rejected : Bool
  deriving DecidableEq, Repr

/-- `impl PartialEq for Measurement`. measurement.rs:123-135. -/
def Msr.beq {T K : Type} [DecidableEq T] [DecidableEq K] (a b : Msr T K) : Bool :=
  decide (a.tracker = b.tracker) && decide (a.epoch = b.epoch) &&
    a.data.all (fun e => match get b.data e.1 with
      | some v => decide (|e.2 - v| < 1 / 10000000000)
      | none => false)

/-- `TrackingDataArc` without its `source` (a file name). od/msr/trackingdata/mod.rs:74-85. -/
structure Arc (T K : Type) where
  measurements : List (Msr T K)
  moduli : Option (IMap K Rat)
  forceReject : Bool
  deriving DecidableEq, Repr

variable {T K : Type} [LinearOrder T] [DecidableEq K]

/-- The comparison of `sort`: epoch, then tracker. od/msr/trackingdata/mod.rs:91-95. -/
def leKey (a b : Msr T K) : Prop := a.epoch < b.epoch ∨ (a.epoch = b.epoch ∧ a.tracker ≤ b.tracker)

/-- The merge of two measurements of the same tracker and epoch. od/msr/trackingdata/mod.rs:103-108. -/
def merge (kept next : Msr T K) : Msr T K :=
  { kept with data := extend kept.data next.data, rejected := kept.rejected || next.rejected }

/-- `dedup_by` of `sort`. od/msr/trackingdata/mod.rs:100-117. -/
def coalesce : List (Msr T K) → List (Msr T K)
  | [] => []
  | [a] => [a]
  | a :: b :: l =>
    if b.epoch = a.epoch ∧ b.tracker = a.tracker then coalesce (merge a b :: l)
    else a :: coalesce (b :: l)
termination_by l => l.length

/-- What `sort_unstable_by` promises: a sorted permutation, in any order among equal keys. -/
structure Sorts (srt : List (Msr T K) → List (Msr T K)) : Prop where
  perm : ∀ l, (srt l).Perm l
  sorted : ∀ l, (srt l).Pairwise leKey

/-- `TrackingDataArc::sort`. od/msr/trackingdata/mod.rs:90-117. `srt` is the unstable sort. -/
def sort (srt : List (Msr T K) → List (Msr T K)) (l : List (Msr T K)) : List (Msr T K) :=
  coalesce (srt l)

/-- `impl Add for TrackingDataArc`. od/msr/trackingdata/mod.rs:547-556. -/
def Arc.add (srt : List (Msr T K) → List (Msr T K)) (a b : Arc T K) : Arc T K :=
  { a with measurements := sort srt (a.measurements ++ b.measurements), forceReject := false }

/-! ### Binary search, ranges -/

/-- `slice::partition_point` on a slice that is partitioned by the predicate (all `true` before all
`false`). On other slices the standard library leaves the result unspecified; every theorem assumes
sorted arcs, for which the slices are partitioned. -/
def partitionPoint {α : Type} (p : α → Bool) (l : List α) : Nat := (l.takeWhile p).length

/-- Rust's `Bound`. -/
inductive Bound where
  | included (e : Int)
  | excluded (e : Int)
  | unbounded
  deriving DecidableEq, Repr

/-- `resolve_bounds`. od/msr/trackingdata/mod.rs:321-338. -/
def resolveBounds (l : List (Msr T K)) (lo hi : Bound) : Nat × Nat :=
  (match lo with
    | .included e => partitionPoint (fun m => decide (m.epoch < e)) l
    | .excluded e => partitionPoint (fun m => decide (m.epoch ≤ e)) l
    | .unbounded => 0,
   match hi with
    | .included e => partitionPoint (fun m => decide (m.epoch ≤ e)) l
    | .excluded e => partitionPoint (fun m => decide (m.epoch < e)) l
    | .unbounded => l.length)

/-- `filter_by_epoch`. od/msr/trackingdata/mod.rs:367-390. -/
def filterByEpoch (l : List (Msr T K)) (lo hi : Bound) : List (Msr T K) :=
  let b := resolveBounds l lo hi
  if b.1 ≥ b.2 ∨ b.1 ≥ l.length then [] else (l.take b.2).drop b.1

/-- `exclude_by_epoch`. od/msr/trackingdata/mod.rs:456-466. -/
def excludeByEpoch (l : List (Msr T K)) (lo hi : Bound) : List (Msr T K) :=
  let b := resolveBounds l lo hi
  if b.1 < b.2 ∧ b.1 < l.length then l.take b.1 ++ l.drop b.2 else l

/-- `reject_by_epoch`. od/msr/trackingdata/mod.rs:484-493. -/
def rejectByEpoch (l : List (Msr T K)) (lo hi : Bound) : List (Msr T K) :=
  let b := resolveBounds l lo hi
  if b.1 < b.2 ∧ b.1 < l.length then
    l.take b.1 ++ ((l.take b.2).drop b.1).map (fun m => { m with rejected := true }) ++ l.drop b.2
  else l

/-- `filter_by_offset`: always the half open range `start..end`. od/msr/trackingdata/mod.rs:394-410. -/
def filterByOffset (l : List (Msr T K)) (lo hi : Bound) : List (Msr T K) :=
  match l.head?, l.getLast? with
  | some f, some la =>
    let start := match lo with
      | .unbounded => f.epoch
      | .included d => f.epoch + d
      | .excluded d => f.epoch + d
    let end_ := match hi with
      | .unbounded => la.epoch
      | .included d => f.epoch + d
      | .excluded d => f.epoch + d
    filterByEpoch l (.included start) (.excluded end_)
  | _, _ => l

/-! ### Filters on trackers and types -/

/-- `filter_by_tracker`. od/msr/trackingdata/mod.rs:413-426. -/
def filterByTracker (l : List (Msr T K)) (t : T) : List (Msr T K) :=
  l.filter (fun m => decide (m.tracker = t))

/-- `exclude_tracker`. od/msr/trackingdata/mod.rs:438-451. -/
def excludeTracker (l : List (Msr T K)) (t : T) : List (Msr T K) :=
  l.filter (fun m => decide (m.tracker ≠ t))

/-- `filter_by_measurement_type`. od/msr/trackingdata/mod.rs:429-435. -/
def filterByType (l : List (Msr T K)) (ty : K) : List (Msr T K) :=
  (l.map (fun m => { m with data := m.data.filter (fun e => decide (e.1 = ty)) })).filter
    (fun m => !m.data.isEmpty)

/-- `exclude_measurement_type`. od/msr/trackingdata/mod.rs:469-479. -/
def excludeType (l : List (Msr T K)) (ty : K) : List (Msr T K) :=
  l.map (fun m => { m with data := m.data.filter (fun e => decide (e.1 ≠ ty)) })

/-- `reject_by_tracker`. od/msr/trackingdata/mod.rs:497-504. -/
def rejectByTracker (l : List (Msr T K)) (t : T) : List (Msr T K) :=
  l.map (fun m => if m.tracker = t then { m with rejected := true } else m)

/-! ### Moduli -/

/-- Rust's `f64 % f64`: remainder of the truncated division. -/
def fmod (x m : Rat) : Rat := x - m * (if 0 ≤ x / m then (⌊x / m⌋ : Rat) else (⌈x / m⌉ : Rat))

/-- `IndexMap::get_mut` followed by an assignment through it. -/
def modifyAt (d : IMap K Rat) (k : K) (f : Rat → Rat) : IMap K Rat :=
  d.map (fun e => if e.1 = k then (e.1, f e.2) else e)

/-- `set_moduli` (f64::EPSILON is 2^-52; NaN is not modelled). od/msr/trackingdata/mod.rs:163-173. -/
def Arc.setModuli (a : Arc T K) (ty : K) (m : Rat) : Arc T K :=
  if |m| < 1 / 2 ^ 52 then a
  else { a with moduli := some (insert (a.moduli.getD []) ty m) }

/-- `apply_moduli`. od/msr/trackingdata/mod.rs:176-186. -/
def Arc.applyModuli (a : Arc T K) : Arc T K :=
  match a.moduli with
  | none => a
  | some ms => { a with
      measurements := a.measurements.map (fun m =>
        { m with data := ms.foldl (fun d e => modifyAt d e.1 (fun x => fmod x e.2)) m.data }) }

/-! ### Chunks -/

/-- The `while` loop of `chunk` on the remaining measurements, with fuel; `none` if it does not
finish. od/msr/trackingdata/mod.rs:286-315. -/
def chunkLoop (maxDur : Int) : Nat → List (Msr T K) → Option (List (List (Msr T K)))
  | _, [] => some []
  | 0, _ :: _ => none
  | fuel + 1, m :: l =>
    let offset := partitionPoint (fun x => decide (x.epoch ≤ m.epoch + maxDur)) (m :: l)
    (chunkLoop maxDur fuel ((m :: l).drop offset)).map (fun r => (m :: l).take offset :: r)

/-- `chunk`. od/msr/trackingdata/mod.rs:280-319. -/
def Arc.chunk (a : Arc T K) (maxDur : Int) (fuel : Nat) : Option (List (Arc T K)) :=
  if a.measurements = [] ∨ maxDur ≤ 0 then some []
  else (chunkLoop maxDur fuel a.measurements).map
    (fun cs => cs.map (fun c => { a with measurements := c }))

/-! ### Downsampling -/

/-- `min_duration_sep`; `none` stands for `Duration::MAX` of an arc with a single measurement.
od/msr/trackingdata/mod.rs:147-160. -/
def minSep : List (Msr T K) → Option Int
  | [] => none
  | [_] => none
  | a :: b :: l =>
    some (match minSep (b :: l) with
      | none => b.epoch - a.epoch
      | some s => min (b.epoch - a.epoch) s)

/-- `(current_hz / target_hz).round() as usize` with `current_hz = 1/current`: infinite when two
measurements are simultaneous. `usizeMax` is `usize::MAX`. The ratio is rounded half away from
zero. Rational arithmetic instead of f64. od/msr/trackingdata/mod.rs:230-234. -/
def windowSize (usizeMax : Nat) (current target : Int) : Nat :=
  if current = 0 then usizeMax else ((2 * target + current) / (2 * current)).toNat

/-- The window of the moving average around index `i`. od/msr/trackingdata/mod.rs:249-251. -/
def windowAt (l : List (Msr T K)) (w i : Nat) : List (Msr T K) :=
  (l.take (min (i + w / 2 + 1) l.length)).drop (i - w / 2)

/-- The values of a type in a window. -/
def valuesOf (ms : List (Msr T K)) (ty : K) : List Rat := ms.filterMap (fun m => get m.data ty)

/-- The averaged measurement made at index `i`. od/msr/trackingdata/mod.rs:248-273. -/
def averaged (l : List (Msr T K)) (types : List K) (w i : Nat) (m : Msr T K) : Option (Msr T K) :=
  match windowAt l w i with
  | [] => none
  | f :: win =>
    some { tracker := f.tracker, epoch := m.epoch, rejected := false,
           data := types.filterMap (fun ty =>
             let vs := valuesOf (f :: win) ty
             if vs.length > 0 then some (ty, vs.sum / (vs.length : Rat)) else none) }

/-- `unique_types`: every type of the arc, once, in order of appearance. od/msr/trackingdata/mod.rs:352-362. -/
def uniqueTypes (l : List (Msr T K)) : List K :=
  (l.flatMap (fun m => m.data.map Prod.fst)).foldl (fun acc k => if k ∈ acc then acc else acc ++ [k]) []

/-- The indices visited by `enumerate().step_by(w)`. -/
def stepIdx (n w : Nat) : List Nat := (List.range n).filter (fun i => i % w == 0)

/-- `downsample`. od/msr/trackingdata/mod.rs:217-277. -/
def Arc.downsample (srt : List (Msr T K) → List (Msr T K)) (usizeMax : Nat) (a : Arc T K)
    (target : Int) : Arc T K :=
  match minSep a.measurements with
  | none => a
  | some current =>
    if current ≥ target then a
    else
      let w := windowSize usizeMax current target
      let types := uniqueTypes a.measurements
      { measurements := sort srt ((stepIdx a.measurements.length w).filterMap (fun i =>
          match a.measurements[i]? with
          | some m => averaged a.measurements types w i m
          | none => none)),
        moduli := none, forceReject := false }

end Verif.Tracking
