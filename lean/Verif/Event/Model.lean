import Verif.Propagate.Stop
import Verif.Traj.More
/-!
Model of `until_event` / `until_nth_event` (nyx-core/src/propagators/event.rs).

The event evaluation (anise `Event::eval`, with the optional transformation into `event_frame`), the
Brent solver with the interpolation of the trajectory, and the order in which the parallel receiver
delivers the published states are parameters. Event values are rationals.
-/
namespace Verif.Event
open Verif.Propagate Verif.Traj

variable {X E Fr : Type}

/-- The memory of the closure: `crossing_counts` and `y_prev`. event.rs:100, 110. -/
structure Mem where
  count : Nat
  prev : Rat
  deriving DecidableEq, Repr

/-- Whether a crossing is counted between two consecutive values. event.rs:128-142.
`f64::signum` of zero is one. -/
def crosses (angle : Bool) (a b : Rat) : Bool :=
  if angle then decide (signum a ≠ signum b) && decide (|b - a| < 180)
  else decide (a * b < 0)

/-- The closure `enough_crossings`. event.rs:115-145. -/
def enough (eval : St X → Except E Rat) (angle : Bool) (trigger : Nat) : Cond X E Mem :=
  fun m s => match eval s with
    | .error e => (.error e, m)
    | .ok y =>
      let n := if crosses angle m.prev y then m.count + 1 else m.count
      (.ok (decide (n ≥ trigger)), ⟨n, y⟩)

/-- How `until_nth_event` ends. -/
inductive Out (X E : Type) where
  /-- an error of the propagation or of the evaluation of the event at the start -/
  | prop (e : Err E)
  /-- `NthEventError`, with the number of crossings found -/
  | nth (found : Nat)
  /-- the Brent solver is called between two states, on a trajectory -/
  | search (lo hi : St X) (traj : List (TS X))
  /-- `traj.states.last().unwrap()` on an empty trajectory -/
  | panic
  deriving DecidableEq

/-- `until_nth_event` up to the call of the solver; `none` when the fuel runs out. `deliver` is the
order in which the parallel receiver collects. event.rs:88-196. -/
def untilNth [DecidableEq Fr] [DecidableEq X] (env : Env X E Fr) (eval : St X → Except E Rat)
    (angle : Bool) (trigger : Nat) (deliver : List (St X) → List (St X)) (fuel : Nat) (d : Int)
    (i : Inst X) : Option (Out X E) :=
  match eval i.st with
  | .error e => some (.prop (.dyn e))
  | .ok y0 =>
    match propagate env (enough eval angle trigger) fuel d i ⟨0, y0⟩ with
    | none => none
    | some o => match o.res with
      | .error e => some (.prop e)
      | .ok s =>
        let traj := withTraj ((deliver o.sent).map ofSt) (ofSt i.st)
        match traj.getLast? with
        | none => some .panic
        | some last =>
          if ofSt s = last then some (.nth o.mem.count)
          else some (.search ⟨last.epoch, last.x⟩ s (traj ++ [ofSt s]))

end Verif.Event
