import Verif.Util.Sort
/-!
Model of trajectories (nyx-core/src/md/trajectory/{traj.rs, traj_it.rs, mod.rs, interpolatable.rs}).
Epochs are integer nanoseconds. Interpolation (`hermite_eval`) is a parameter.
-/
namespace Verif.Traj
open Verif.Util

/-- A stored state: its epoch and the rest. -/
structure TS (X : Type) where
  epoch : Int
  x : X
  deriving DecidableEq, Repr

/-- Result of an operation that may return an error or panic. -/
inductive Res (E A : Type) where
  | ok (a : A)
  | err (e : E)
  | panic
  deriving DecidableEq, Repr

/-- `Traj::finalize`: `dedup_by` adjacent equal epochs, then stable sort. traj.rs:75-80. -/
def finalize {X} (l : List (TS X)) : List (TS X) := sortBy TS.epoch (dedupBy TS.epoch l)

/-- Errors of `at`: `NoInterpolationData` and the wrapped interpolation error. -/
inductive AtErr (E : Type) where
  | noData
  | interp (e : E)
  deriving DecidableEq, Repr

/-- The documented contract of `slice::binary_search_by` for the epochs `l` and the key `e`:
`Ok` gives the position of some equal element, `Err` the insertion point. -/
def SearchOk (l : List Int) (e : Int) : Except Nat Nat → Prop
  | .ok i => l[i]? = some e
  | .error i => i ≤ l.length ∧ (∀ j k, j < i → l[j]? = some k → k < e) ∧
      (∀ j k, i ≤ j → l[j]? = some k → e < k)

/-- A search with that contract on sorted lists (used for witnesses): linear scan. -/
def linSearch (l : List Int) (e : Int) : Except Nat Nat :=
  if e ∈ l then .ok (l.idxOf e) else .error ((l.filter (· < e)).length)

/-- `INTERPOLATION_SAMPLES`. interpolatable.rs:22. -/
def samples : Nat := 13

/-- First index (inclusive) and last index (exclusive) of the interpolation window for the insertion
point `idx` in a list of `len` states. traj.rs:105-116; `Nat` subtraction is `saturating_sub`. -/
def window (len idx : Nat) : Nat × Nat :=
  let numLeft := samples / 2
  let first := idx - numLeft
  let last := min len (first + samples)
  if last = len then (last - 2 * numLeft, last) else (first, last)

/-- `for idx in first..last { states.push(self.states[idx]) }`, panicking if out of bounds.
traj.rs:118-121. -/
def slice? {X} (l : List X) (first last : Nat) : Option (List X) :=
  if last ≤ l.length then some ((l.drop first).take (last - first)) else none

/-- `Traj::at`. traj.rs:83-126. `search` is `binary_search_by`, `interp` is
`Interpolatable::interpolate(self.states[idx], epoch, &states)`. `Vec::with_capacity(last - first)`
would panic on underflow, so would an index out of bounds. -/
def at_ {X E} (search : List Int → Int → Except Nat Nat)
    (interp : TS X → Int → List (TS X) → Except E (TS X))
    (l : List (TS X)) (epoch : Int) : Res (AtErr E) (TS X) :=
  match l.head?, l.getLast? with
  | some f, some la =>
    if f.epoch > epoch ∨ la.epoch < epoch then .err .noData
    else
      match search (l.map TS.epoch) epoch with
      | .ok idx => match l[idx]? with
        | some s => .ok s
        | none => .panic
      | .error idx =>
        if idx = 0 ∨ idx ≥ l.length then .err .noData
        else
          let w := window l.length idx
          if w.2 < w.1 then .panic
          else match slice? l w.1 w.2, l[idx]? with
            | some states, some s => match interp s epoch states with
              | .ok r => .ok r
              | .error e => .err (.interp e)
            | _, _ => .panic
  | _, _ => .err .noData

/-- hifitime `TimeSeries::inclusive(start, end, step)` collected: the epochs `start + k*step` not
after `end`. For `step ≤ 0` and `start ≤ end` the real iterator never ends; `none`. -/
def timeSeries (start end_ step : Int) : Option (List Int) :=
  if end_ < start then some []
  else if step ≤ 0 then none
  else some ((List.range (((end_ - start) / step).toNat + 1)).map
    (fun (k : Nat) => start + (k : Int) * step))

/-- Collecting a `TrajIterator`: evaluate at each epoch of the series, stop at the first error
(`next` returns `None`). traj_it.rs:37-63. A panic of `at` ends the iteration here; it is proved
not to occur. -/
def collectAt {X E} (f : Int → Res (AtErr E) (TS X)) : List Int → List (TS X)
  | [] => []
  | e :: es => match f e with
    | .ok s => s :: collectAt f es
    | _ => []

/-- `every_between(step, start, end).collect()`. traj.rs:153-162. `none`: never ends. Panics on an
empty trajectory (`first().unwrap()`). -/
def everyBetween {X E} (search : List Int → Int → Except Nat Nat)
    (interp : TS X → Int → List (TS X) → Except E (TS X))
    (l : List (TS X)) (step start end_ : Int) : Res Unit (Option (List (TS X))) :=
  match l.head?, l.getLast? with
  | some f, some la =>
    .ok ((timeSeries (max start f.epoch) (min end_ la.epoch) step).map
      (collectAt (at_ search interp l)))
  | _, _ => .panic

/-- `resample`: `every(step)` then finalize. traj.rs:367-384. -/
def resample {X E} (search : List Int → Int → Except Nat Nat)
    (interp : TS X → Int → List (TS X) → Except E (TS X))
    (l : List (TS X)) (step : Int) : Res Unit (Option (List (TS X))) :=
  match l.head?, l.getLast? with
  | some f, some la =>
    match everyBetween search interp l step f.epoch la.epoch with
    | .ok r => .ok (r.map finalize)
    | .err e => .err e
    | .panic => .panic
  | _, _ => .err ()

/-- Rust range bounds. -/
inductive Bound where
  | included (d : Int)
  | excluded (d : Int)
  | unbounded
  deriving DecidableEq, Repr

/-- The lower half of `RangeBounds::contains`. -/
def aboveLo : Bound → Int → Bool
  | .included d, e => decide (d ≤ e)
  | .excluded d, e => decide (d < e)
  | .unbounded, _ => true

/-- The upper half of `RangeBounds::contains`. -/
def belowHi : Bound → Int → Bool
  | .included d, e => decide (e ≤ d)
  | .excluded d, e => decide (e < d)
  | .unbounded, _ => true

/-- `RangeBounds::contains`. -/
def inRange (lo hi : Bound) (e : Int) : Bool := aboveLo lo e && belowHi hi e

/-- `filter_by_epoch`. traj.rs:165-173. -/
def filterByEpoch {X} (l : List (TS X)) (lo hi : Bound) : List (TS X) :=
  l.filter (fun s => inRange lo hi s.epoch)

/-- `filter_by_offset`. traj.rs:177-193. -/
def filterByOffset {X} (l : List (TS X)) (lo hi : Bound) : List (TS X) :=
  match l.head?, l.getLast? with
  | some f, some la =>
    let start := match lo with
      | .unbounded => f.epoch
      | .included o | .excluded o => f.epoch + o
    let end_ := match hi with
      | .unbounded => la.epoch
      | .included o | .excluded o => f.epoch + o
    filterByEpoch l (.included start) (.included end_)
  | _, _ => l

/-- `impl Add for &Traj`. traj.rs:622-658. `first()`/`last()` unwrap: panic when empty. `frameOf`
is `Interpolatable::frame`. -/
def add {X Fr} [DecidableEq Fr] (frameOf : X → Fr) (t1 t2 : List (TS X)) :
    Res Unit (List (TS X)) :=
  match t1.head?, t1.getLast?, t2.head? with
  | some f1, some l1, some f2 =>
    if frameOf f1.x ≠ frameOf f2.x then .err ()
    else .ok (finalize (t1 ++ t2.filter (fun s => decide (s.epoch > l1.epoch))))
  | _, _, _ => .panic

/-- The propellant part of `Spacecraft::interpolate`: `self` is the state at the insertion point.
interpolatable.rs:103-108. Masses and seconds are rationals. -/
def interpMass (selfMass : Rat) (t : Rat) (first last : Rat × Rat) : Rat :=
  let rate := (last.2 - first.2) / (last.1 - first.1)
  selfMass + rate * (t - first.1)

/-- The trajectory of `for_duration_with_traj`: the states delivered by the receiver (in any
order), then the start state, then `finalize`. propagators/instance.rs:315-323. -/
def withTraj {X} (delivered : List (TS X)) (start : TS X) : List (TS X) :=
  finalize (delivered ++ [start])

/-- One component of `smooth_state_diff_in_place`: the window around `i` of the *current* array.
md/trajectory/mod.rs:77-123. -/
def median (l : List Int) : Option Int := (l.mergeSort (fun a b => decide (a ≤ b)))[l.length / 2]?

/-- The window `start..end` around `i`. md/trajectory/mod.rs:89-90. -/
def winOf (half i : Nat) (l : List Int) : List Int :=
  (l.take (min (i + half + 1) l.length)).drop (i - half)

/-- One iteration of the outer loop: replace element `i` by the median of its window. -/
def smoothAt (half : Nat) (l : List Int) (i : Nat) : List Int :=
  match median (winOf half i l) with
  | some m => l.set i m
  | none => l

/-- `smooth_state_diff_in_place` on one component. The components are independent. Values are integers (only their order matters). -/
def smooth (half : Nat) (l : List Int) : List Int :=
  (List.range l.length).foldl (smoothAt half) l

end Verif.Traj
