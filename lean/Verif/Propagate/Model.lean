import Mathlib.Data.Rat.Floor
/-!
Model of `PropInstance` (nyx-core/src/propagators/instance.rs).

* Epochs and durations are integer nanoseconds (`Int`); hifitime's saturation is not modelled.
* `f64` seconds are rationals (every finite `f64` is one), rounding is not modelled.
* The dynamics (equations of motion through the Runge-Kutta stages, `finally`, frame
  transformations) are parameters; they may fail at any call.
-/
namespace Verif.Propagate

/-- Outcome kinds of `PropagationError` which this file itself raises; `dyn` wraps the errors of
the dynamics, the almanac and the stop condition. propagators/instance.rs:405-412 (`nan`). -/
inductive Err (E : Type) where
  | dyn (e : E)
  | nan
  deriving DecidableEq, Repr

/-- A propagated state: its epoch and everything else.
Simplified from `State` (cosmic/mod.rs): the payload `X` contains orbit, frame, masses. -/
structure St (X : Type) where
  epoch : Int
  x : X
  deriving DecidableEq, Repr

/-- `IntegratorOptions`, propagators/options.rs:40-60 (fields read by `derive`).
`order` is `method.order()` (propagators/rk_methods/mod.rs). -/
structure Opts where
  minStep : Int
  maxStep : Int
  tol : Rat
  attempts : Nat
  order : Nat
  deriving Repr

/-- What one evaluation of all the Runge-Kutta stages gives: the candidate payload, the scalar
error estimate of the error controller, and whether the candidate contains a NaN.
propagators/instance.rs:370-420. -/
structure RkOut (X : Type) where
  x : X
  err : Rat
  isNaN : Bool
  deriving Repr

/-- The parameters of a propagation: options, the Runge-Kutta evaluation for a step of so many
seconds from a state, the real power `x^(1/n)` used by the controller, `Dynamics::finally`,
the integration frame with the almanac transformation. -/
structure Env (X E Fr : Type) where
  opts : Opts
  rk : St X → Rat → Except E (RkOut X)
  root : Rat → Nat → Rat
  finally_ : St X → Except E (St X)
  integrationFrame : Option Fr
  frameOf : X → Fr
  transform : Fr → St X → Except E (St X)

/-- `Duration::to_seconds`. Simplified: exact. -/
def toSec (d : Int) : Rat := (d : Rat) / 1000000000

/-- `f64 * Unit::Second`: hifitime truncates the nanoseconds toward zero. -/
def toDur (s : Rat) : Int :=
  if 0 ≤ s then ⌊s * 1000000000⌋ else ⌈s * 1000000000⌉

/-- `f64::signum` on finite non zero numbers (`0.0.signum() = 1.0`). -/
def signum (s : Rat) : Rat := if s < 0 then -1 else 1

/-- The step proposed after an accepted step whose error is under the tolerance.
propagators/instance.rs:422-437. An error of exactly zero gives an infinite ratio in `f64`, hence
the clamp to the maximum step; a negative error estimate gives NaN, which `* Unit::Second`
turns into a zero duration. -/
def grow {X E Fr} (env : Env X E Fr) (s err : Rat) : Rat :=
  if err = 0 then toSec env.opts.maxStep * signum s
  else if err < 0 then 0
  else
    let proposed := (9/10) * s * env.root (env.opts.tol / err) env.opts.order
    if |proposed| > |toSec env.opts.maxStep| then toSec env.opts.maxStep * signum proposed
    else proposed

/-- The step tried after a rejected attempt. propagators/instance.rs:451-467. -/
def shrink {X E Fr} (env : Env X E Fr) (s err : Rat) : Rat :=
  let proposed := (9/10) * s * env.root (env.opts.tol / err) (env.opts.order - 1)
  if proposed < toSec env.opts.minStep then toSec env.opts.minStep else proposed

/-- The new `self.step_size` with the lower clamp. propagators/instance.rs:440-448. -/
def clampMin (o : Opts) (d : Int) : Int :=
  if |d| < o.minStep then (if d < 0 then -o.minStep else o.minStep) else d

/-- What `derive` leaves behind: the time step taken, the new payload, the new
`self.step_size`, and `self.details` (attempts, error, seconds actually used). -/
structure Derived (X : Type) where
  dt : Int
  x : X
  newStep : Int
  attempts : Nat
  err : Rat
  used : Rat
  deriving Repr

/-- The acceptance test. propagators/instance.rs:401-403. -/
def accepts (o : Opts) (err s : Rat) (attempts : Nat) : Prop :=
  err ≤ o.tol ∨ s ≤ toSec o.minStep ∨ attempts ≥ o.attempts

instance (o : Opts) (err s : Rat) (n : Nat) : Decidable (accepts o err s n) := by
  unfold accepts; infer_instance

/-- The adaptive branch of the retry loop of `derive`; the second component is the list of steps (in seconds) for
which the stages were evaluated. propagators/instance.rs:358-472. -/
def deriveAdaptive {X E Fr} (env : Env X E Fr) (st : St X) (attempts : Nat) (s : Rat) :
    Except (Err E) (Derived X) × List Rat :=
  match env.rk st s with
  | .error e => (.error (.dyn e), [s])
  | .ok r =>
    if accepts env.opts r.err s attempts then
      if r.isNaN then (.error .nan, [s])
      else
        let s' := if r.err < env.opts.tol then grow env s r.err else s
        (.ok { dt := toDur s, x := r.x, newStep := clampMin env.opts (toDur s'),
               attempts := attempts, err := r.err, used := s }, [s])
    else
      let rec_ := deriveAdaptive env st (attempts + 1) (shrink env s r.err)
      (rec_.1, s :: rec_.2)
termination_by env.opts.attempts - attempts
decreasing_by
  rename_i h; unfold accepts at h; omega

/-- `PropInstance`: the fields that change. propagators/instance.rs:45-60. -/
structure Inst (X : Type) where
  st : St X
  step : Int
  fixed : Bool
  deriving DecidableEq, Repr

/-- `derive` on an instance. In the fixed step case nothing is adapted.
propagators/instance.rs:393-396 and above. -/
def derive {X E Fr} (env : Env X E Fr) (i : Inst X) : Except (Err E) (Derived X) :=
  if i.fixed then
    match env.rk i.st (toSec i.step) with
    | .error e => .error (.dyn e)
    | .ok r => .ok { dt := i.step, x := r.x, newStep := i.step, attempts := 1,
                     err := 0, used := toSec i.step }
  else (deriveAdaptive env i.st 1 (toSec i.step)).1

/-- `single_step`: derive, set the state, call `finally`. On an error of `finally` the state has
already been replaced. propagators/instance.rs:343-352. -/
def singleStep {X E Fr} (env : Env X E Fr) (i : Inst X) : Except (Err E) Unit × Inst X :=
  match derive env i with
  | .error e => (.error e, i)
  | .ok d =>
    let i' : Inst X := { i with st := ⟨i.st.epoch + d.dt, d.x⟩, step := d.newStep }
    match env.finally_ i'.st with
    | .error e => (.error (.dyn e), i')
    | .ok s => (.ok (), { i' with st := s })

/-- Everything observable after `propagate` returns: its result, the instance, the states sent on
the channel (in order), and the memory of the stop condition closure. -/
structure Outcome (X E C : Type) where
  res : Except (Err E) (St X)
  inst : Inst X
  sent : List (St X)
  mem : C

/-- The stop condition closure (`FnMut`), with its memory. -/
abbrev Cond (X E C : Type) := C → St X → Except E Bool × C

/-- Rotating back into the original frame before returning.
propagators/instance.rs:166-175 and 205-215. -/
def rotateBack {X E Fr C} (env : Env X E Fr) (orig : Option Fr) (i : Inst X)
    (sent : List (St X)) (m : C) : Outcome X E C :=
  match orig with
  | none => ⟨.ok i.st, i, sent, m⟩
  | some f =>
    match env.transform f i.st with
    | .error e => ⟨.error (.dyn e), i, sent, m⟩
    | .ok s => ⟨.ok s, { i with st := s }, sent, m⟩

/-- The main loop of `propagate`, with fuel; `none` means the fuel ran out.
propagators/instance.rs:146-260. -/
def loop {X E Fr C} (env : Env X E Fr) (cond : Cond X E C) (back : Bool) (stop : Int)
    (orig : Option Fr) : Nat → Inst X → List (St X) → C → Option (Outcome X E C)
  | 0, _, _, _ => none
  | n + 1, i, sent, m =>
    let epoch := i.st.epoch
    if (back = false ∧ epoch + i.step > stop) ∨ (back = true ∧ epoch + i.step ≤ stop) then
      if stop = epoch then some (rotateBack env orig i sent m)
      else
        match singleStep env { i with step := stop - epoch, fixed := true } with
        | (.error e, i') => some ⟨.error e, i', sent, m⟩
        | (.ok (), i') =>
          let i'' : Inst X :=
            { i' with step := if back then -i.step else i.step, fixed := i.fixed }
          some (rotateBack env orig i'' (sent ++ [i''.st]) m)
    else
      match singleStep env i with
      | (.error e, i') => some ⟨.error e, i', sent, m⟩
      | (.ok (), i') =>
        match cond m i'.st with
        | (.error e, m') => some ⟨.error (.dyn e), i', sent, m'⟩
        | (.ok true, m') => some ⟨.ok i'.st, i', sent, m'⟩
        | (.ok false, m') => loop env cond back stop orig n i' (sent ++ [i'.st]) m'

/-- `propagate`. propagators/instance.rs:87-262. The frame parameters copied onto the new frame
(lines 127-134) are part of `transform`. -/
def propagate {X E Fr C} [DecidableEq Fr] (env : Env X E Fr) (cond : Cond X E C) (fuel : Nat)
    (duration : Int) (i : Inst X) (m : C) : Option (Outcome X E C) :=
  if duration = 0 then some ⟨.ok i.st, i, [], m⟩
  else
    let stop := i.st.epoch + duration
    match env.finally_ i.st with
    | .error e => some ⟨.error (.dyn e), i, [], m⟩
    | .ok s =>
      let back := decide (duration < 0)
      let i1 : Inst X := { i with st := s, step := if back then -i.step else i.step }
      match env.integrationFrame with
      | none => loop env cond back stop none fuel i1 [] m
      | some f =>
        if f = env.frameOf i1.st.x then loop env cond back stop none fuel i1 [] m
        else
          match env.transform f i1.st with
          | .error e => some ⟨.error (.dyn e), i1, [], m⟩
          | .ok s' =>
            loop env cond back stop (some (env.frameOf i1.st.x)) fuel { i1 with st := s' } [] m

/-- The stop condition of `for_duration`: `Some(|_| Ok(false))`. instance.rs:265-267. -/
def never {X E : Type} : Cond X E Unit := fun _ _ => (.ok false, ())

/-- `for_duration` / `for_duration_with_channel`. instance.rs:265-276. -/
def forDuration {X E Fr} [DecidableEq Fr] (env : Env X E Fr) (fuel : Nat) (duration : Int)
    (i : Inst X) : Option (Outcome X E Unit) :=
  propagate env never fuel duration i ()

/-- `until_epoch`. instance.rs:279-282. -/
def untilEpoch {X E Fr} [DecidableEq Fr] (env : Env X E Fr) (fuel : Nat) (endTime : Int)
    (i : Inst X) : Option (Outcome X E Unit) :=
  forDuration env fuel (endTime - i.st.epoch) i

end Verif.Propagate
