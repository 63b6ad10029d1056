import Verif.Spacecraft.Model
import Verif.MathU.Model
import Verif.Poly.Model
/-!
Model of the targeter: nyx-core/src/md/opti/{raphson_finite_diff,raphson_hyperdual,solution,targeter,
target_variable}.rs, nyx-core/src/md/objective.rs and the part of nyx-core/src/dynamics/guidance/mnvr.rs
which changes a maneuver.

Floating point numbers are real numbers, epochs are integers (nanoseconds). The propagator, the frame
transformation, the orbital elements with their partials, the B-plane and the rotation of a local frame
are parameters: they belong to other modules or to anise. The messages are not modelled; the width of their columns is in Messages.lean.
-/
namespace Verif.Target
open Matrix
open Verif.Spacecraft (Craft)
open Verif.MathU (V3 nrm eps vecOfRaDec raDecOfVec pseudoInverse)
open Verif.Poly (Common)

/-! ### Outcomes -/

/-- The errors of the targeter which are told apart. errors.rs, `TargetingError`. -/
inductive Err where
  | underdetermined | variable | frame | noThruster | guidance | prop | astro | ineffective | singular
  | tooMany | unsupported | notFinite | verification | tooClose
deriving DecidableEq

/-- Outcome of a call: a value, an error, or a panic (`unwrap` of an error, `unreachable!`, index out of
bounds). -/
inductive Res (α : Type) where
  | ok (a : α)
  | err (e : Err)
  | panic

/-- The operator `?` of Rust. -/
def Res.bind {α β : Type} (r : Res α) (f : α → Res β) : Res β :=
  match r with
  | .ok a => f a
  | .err e => .err e
  | .panic => .panic

/-- `?` on the result of another module. -/
def orErr {α : Type} (o : Option α) (e : Err) : Res α := o.elim (.err e) .ok

/-- `unwrap()` of an optional value. -/
def unwrapO {α : Type} (o : Option α) : Res α := o.elim .panic .ok

/-- `unwrap()` of a result. -/
def Res.unwrap {α : Type} (r : Res α) : Res α :=
  match r with
  | .ok a => .ok a
  | _ => .panic

/-- A `for` loop over items with a mutable state, left by the first error. -/
def foldRes {σ ι : Type} (f : σ → ι → Res σ) : List ι → σ → Res σ
  | [], s => .ok s
  | i :: l, s => (f s i).bind (foldRes f l)

/-- The loop which fills an array of `n` items, left by the first error. -/
def seqFin {α : Type} : (n : Nat) → (Fin n → Res α) → Res (Fin n → α)
  | 0, _ => .ok Fin.elim0
  | n + 1, f => (f 0).bind fun a => (seqFin n fun i => f i.succ).bind fun g => .ok (Fin.cons a g)

/-! ### Variables and objectives -/

/-- `Vary`. md/opti/target_variable.rs:28-79. -/
inductive Vary where
  | positionX | positionY | positionZ | velocityX | velocityY | velocityZ
  | mnvrAlpha | mnvrAlphaDot | mnvrAlphaDDot | mnvrDelta | mnvrDeltaDot | mnvrDeltaDDot
  | startEpoch | duration | endEpoch
  | thrustX | thrustY | thrustZ | thrustLevel
  | thrustRateX | thrustRateY | thrustRateZ | thrustAccelX | thrustAccelY | thrustAccelZ
deriving DecidableEq

/-- `is_finite_burn`. md/opti/target_variable.rs:83-103. -/
def Vary.isFinite : Vary → Bool
  | .mnvrAlpha | .mnvrAlphaDDot | .mnvrDelta | .mnvrDeltaDDot | .startEpoch | .duration | .endEpoch
  | .thrustX | .thrustY | .thrustZ | .thrustLevel | .thrustRateX | .thrustRateY | .thrustRateZ
  | .thrustAccelX | .thrustAccelY | .thrustAccelZ => true
  | _ => false

/-- `vec_index`; `none` is `unreachable!()`. md/opti/target_variable.rs:106-119. -/
def Vary.vecIndex : Vary → Option Nat
  | .positionX | .thrustX | .mnvrAlphaDDot | .mnvrDeltaDDot => some 0
  | .positionY | .thrustY | .mnvrAlphaDot | .mnvrDeltaDot => some 1
  | .positionZ | .thrustZ | .mnvrAlpha | .mnvrDelta => some 2
  | .velocityX | .thrustRateX => some 3
  | .velocityY | .thrustRateY => some 4
  | .velocityZ | .thrustRateZ => some 5
  | .startEpoch | .thrustAccelX => some 6
  | .duration | .endEpoch | .thrustAccelY => some 7
  | .thrustAccelZ => some 8
  | .thrustLevel => none

/-- `Variable`, without the frame, which no code reads. md/opti/target_variable.rs:123-138. -/
structure Variable where
  comp : Vary
  pert : ℝ
  guess : ℝ
  maxStep : ℝ
  maxValue : ℝ
  minValue : ℝ

/-- `Variable::valid`. md/opti/target_variable.rs:143-169. -/
def Variable.Valid (v : Variable) : Prop := ¬ v.maxStep < 0 ∧ ¬ v.maxValue < 0 ∧ ¬ v.minValue > v.maxValue

noncomputable instance (v : Variable) : Decidable v.Valid := Classical.dec _

/-- `apply_bounds`, `ensure_bounds`, and the value of `check_bounds`. md/opti/target_variable.rs:192-216. -/
noncomputable def Variable.bound (v : Variable) (x : ℝ) : ℝ :=
  if x > v.maxValue then v.maxValue else if x < v.minValue then v.minValue else x

/-- The flag of `check_bounds`. md/opti/target_variable.rs:208-216. -/
noncomputable def Variable.within (v : Variable) (x : ℝ) : Bool :=
  decide (¬ x > v.maxValue ∧ ¬ x < v.minValue)

/-- `From<Vary> for Variable`, over `Default`. md/opti/target_variable.rs:219-307. -/
noncomputable def Variable.ofVary (c : Vary) : Variable :=
  match c with
  | .positionX | .positionY | .positionZ | .velocityX | .velocityY | .velocityZ => ⟨c, 0.0001, 0, 0.2, 5, -5⟩
  | .mnvrAlpha | .mnvrAlphaDot | .mnvrAlphaDDot => ⟨c, 0.1 * Real.pi, 0, Real.pi / 8, Real.pi, 0⟩
  | .mnvrDelta | .mnvrDeltaDot | .mnvrDeltaDDot =>
    ⟨c, 0.1 * Real.pi, 0, Real.pi / 8, Real.pi / 2, -(Real.pi / 2)⟩
  | .startEpoch | .endEpoch => ⟨c, 0.5, 0, 60, 600, -600⟩
  | .duration => ⟨c, 1, 0, 60, 600, 0⟩
  | .thrustX | .thrustY | .thrustZ => ⟨c, 0.0001, 0, 0.2, 1, -1⟩
  | .thrustRateX | .thrustRateY | .thrustRateZ => ⟨c, 1e-10, 0, 0.2, 1, -1⟩
  | .thrustAccelX | .thrustAccelY | .thrustAccelZ => ⟨c, 1e-15, 0, 0.2, 1, -1⟩
  | .thrustLevel => ⟨c, -0.0001, 1, 0.2, 1, 0.0001⟩

/-- `StateParameter`, as the targeter tells its cases apart; `E` are the orbital elements.
md/param.rs:37-94. -/
inductive Param (E : Type) where
  | bDotR | bDotT | bLtof
  | element (e : E)
  | other

/-- `is_b_plane`. md/param.rs:92-94. -/
def Param.isB {E : Type} : Param E → Bool
  | .bDotR | .bDotT | .bLtof => true
  | _ => false

/-- `Objective`. md/objective.rs:27-38. -/
structure Objective (E : Type) where
  param : Param E
  desired : ℝ
  tol : ℝ
  mult : ℝ
  add : ℝ

/-- The error of `assess_value`. md/objective.rs:70-72. -/
def Objective.error {E : Type} (o : Objective E) (achieved : ℝ) : ℝ := o.mult * (o.desired - achieved) + o.add

/-- The flag of `assess_value`. md/objective.rs:74. -/
noncomputable def Objective.met {E : Type} (o : Objective E) (achieved : ℝ) : Bool :=
  decide (|o.error achieved| ≤ o.tol)

/-! ### The maneuver -/

/-- `MnvrRepr`. dynamics/guidance/mnvr.rs:131-139. -/
inductive Repr where
  | vector (v : V3)
  | angles (azimuth elevation : Common)

/-- `Maneuver`, without its frame. dynamics/guidance/mnvr.rs:69-84. -/
structure Burn where
  start : Int
  stop : Int
  level : ℝ
  repr : Repr

/-- `duration`. dynamics/guidance/mnvr.rs:219-221. -/
def Burn.dur (b : Burn) : Int := b.stop - b.start

/-- The maneuver from which the targeter and `to_mnvr` start. raphson_finite_diff.rs:74-91,
md/opti/solution.rs:69-86. -/
def Burn.initial (t0 t : Int) : Burn := ⟨t0, t, 1, .angles (.quadratic 0 0 0) (.quadratic 0 0 0)⟩

/-- `direction`; the order zero coefficient always exists. dynamics/guidance/mnvr.rs:229-238. -/
noncomputable def Burn.direction (b : Burn) : Res V3 :=
  match b.repr with
  | .vector v => .ok ((1 / nrm v) • v)
  | .angles az el => (unwrapO (az.coeff 0)).bind fun α => (unwrapO (el.coeff 0)).bind fun δ => .ok (vecOfRaDec α δ)

/-- `rate` (k = 1) and `accel` (k = 2). dynamics/guidance/mnvr.rs:246-257, 265-276. -/
noncomputable def Burn.derivative (b : Burn) (k : Nat) : Res V3 :=
  match b.repr with
  | .vector _ => .ok 0
  | .angles az el =>
    (az.coeff k).elim (.ok 0) fun α => (unwrapO (el.coeff k)).bind fun δ => .ok (vecOfRaDec α δ)

/-- `ra_dec_from_unit_vector` followed by the tests of `is_nan`: the arc sine is not a number beyond one.
dynamics/guidance/mnvr.rs:295-303, 311-319, 334-342. -/
noncomputable def raDec (v : V3) : Res (ℝ × ℝ) := if |v 2| > 1 then .err .guidance else .ok (raDecOfVec v)

/-- `set_direction_and_rates`; the constant angles of lines 305-309 cannot be reached.
dynamics/guidance/mnvr.rs:284-357. -/
noncomputable def Burn.setAll (b : Burn) (dir rate accel : V3) : Res Burn :=
  if nrm rate < eps ∧ nrm accel < eps then .ok { b with repr := .vector dir }
  else (raDec dir).bind fun d => (raDec rate).bind fun r =>
    if nrm accel < eps then .ok { b with repr := .angles (.linear r.1 d.1) (.linear r.2 d.2) }
    else (raDec accel).bind fun a =>
      .ok { b with repr := .angles (.quadratic a.1 r.1 d.1) (.quadratic a.2 r.2 d.2) }

/-- Which part of the maneuver a thrust variable changes. -/
inductive Part where
  | direction | rate | accel

/-- The part of the maneuver read by a thrust variable. -/
noncomputable def Burn.get (b : Burn) : Part → Res V3
  | .direction => b.direction
  | .rate => b.derivative 1
  | .accel => b.derivative 2

/-- `set_direction`, `set_rate`, `set_accel`. dynamics/guidance/mnvr.rs:241-243, 260-262, 279-281. -/
noncomputable def Burn.put (b : Burn) (p : Part) (v : V3) : Res Burn :=
  match p with
  | .direction => (b.derivative 1).bind fun r => (b.derivative 2).bind fun a => b.setAll v r a
  | .rate => b.direction.bind fun d => (b.derivative 2).bind fun a => b.setAll d v a
  | .accel => b.direction.bind fun d => (b.derivative 1).bind fun r => b.setAll d r v

/-- The part and the component which a thrust variable reads and writes: `vec_index()` for the direction,
`(vec_index() - 1) % 3` for the rate and the acceleration. raphson_finite_diff.rs:152-165, 383-424, 658-676. -/
def Vary.slot (c : Vary) : Option (Part × Fin 3) :=
  match c with
  | .thrustX | .thrustY | .thrustZ => c.vecIndex.map fun k => (.direction, Fin.ofNat 3 k)
  | .thrustRateX | .thrustRateY | .thrustRateZ => c.vecIndex.map fun k => (.rate, Fin.ofNat 3 ((k - 1) % 3))
  | .thrustAccelX | .thrustAccelY | .thrustAccelZ => c.vecIndex.map fun k => (.accel, Fin.ofNat 3 ((k - 1) % 3))
  | _ => none

/-- The angle which a variable changes: azimuth (`true`) or elevation. raphson_finite_diff.rs:130-151. -/
def Vary.angle : Vary → Option Bool
  | .mnvrAlpha | .mnvrAlphaDot | .mnvrAlphaDDot => some true
  | .mnvrDelta | .mnvrDeltaDot | .mnvrDeltaDDot => some false
  | _ => none

/-- `add_val_in_order(x, vec_index()).unwrap()` on the azimuth or the elevation, `unreachable!()` for a
vector. raphson_finite_diff.rs:130-151. -/
noncomputable def Burn.addAngle (b : Burn) (azimuth : Bool) (c : Vary) (x : ℝ) : Res Burn :=
  match b.repr with
  | .vector _ => .panic
  | .angles az el => (unwrapO c.vecIndex).bind fun k =>
    if azimuth then (unwrapO (az.addVal x k)).bind fun az' => .ok { b with repr := .angles az' el }
    else (unwrapO (el.addVal x k)).bind fun el' => .ok { b with repr := .angles az el' }

/-- Changing one component of a part of the maneuver. -/
noncomputable def Burn.modify (b : Burn) (p : Part) (k : Fin 3) (f : ℝ → ℝ) : Res Burn :=
  (b.get p).bind fun v => b.put p (Function.update v k (f (v k)))

/-- `f64::clamp(0.0, 1.0)`. -/
noncomputable def clamp01 (x : ℝ) : ℝ := if x < 0 then 0 else if x > 1 then 1 else x

/-- The initial guess of a finite burn variable; `secs` is the conversion of seconds to a duration.
raphson_finite_diff.rs:125-171. -/
noncomputable def Burn.guess (secs : ℝ → Int) (b : Burn) (v : Variable) : Res Burn :=
  match v.comp with
  | .duration => .ok { b with stop := b.start + secs v.guess }
  | .endEpoch => .ok { b with stop := b.stop + secs v.guess }
  | .startEpoch => .ok { b with start := b.start + secs v.guess }
  | .thrustLevel => .ok { b with level := clamp01 (b.level + v.pert) }
  | c => match c.angle with
    | some az => b.addAngle az c v.guess
    | none => (unwrapO c.slot).bind fun s => b.modify s.1 s.2 fun x => x + v.pert

/-- The perturbation of a component: opposed when it leaves the bounds. raphson_finite_diff.rs:383-390. -/
noncomputable def Variable.opposed (v : Variable) (x : ℝ) : Bool := !v.within (x + v.pert)

/-- The perturbed maneuver of the Jacobian, and whether the perturbation was opposed.
raphson_finite_diff.rs:339-429. -/
noncomputable def Burn.perturb (secs : ℝ → Int) (b : Burn) (v : Variable) : Res (Burn × Bool) :=
  match v.comp with
  | .duration => .ok (if |v.pert| > 1 / 1000 then { b with stop := b.start + secs v.pert } else b, false)
  | .endEpoch => .ok (if |v.pert| > 1 / 1000 then { b with stop := b.stop + secs v.pert } else b, false)
  | .startEpoch => .ok (if |v.pert| > 1 / 1000 then { b with start := b.start + secs v.pert } else b, false)
  | .thrustLevel => .ok ({ b with level := clamp01 (b.level + v.pert) }, false)
  | c => match c.angle with
    | some az => (b.addAngle az c v.pert).bind fun b' => .ok (b', false)
    | none => (unwrapO c.slot).bind fun s => (b.get s.1).bind fun w =>
      (b.modify s.1 s.2 fun x => if v.opposed x then x + v.pert - 2 * v.pert else x + v.pert).unwrap.bind
        fun b' => .ok (b', v.opposed (w s.2))

/-- The conversion of a duration to seconds. -/
noncomputable def toSecs (d : Int) : ℝ := d / 1000000000

/-- The correction of a finite burn variable by `corr`, with the correction epoch `t0` and the achievement
epoch `t`. The same code is in the loop and in `to_mnvr`. raphson_finite_diff.rs:600-682,
md/opti/solution.rs:92-158. -/
noncomputable def Burn.correct (secs : ℝ → Int) (t0 t : Int) (b : Burn) (v : Variable) (corr : ℝ) : Res Burn :=
  match v.comp with
  | .duration => .ok (if |corr| > 1 / 1000 then { b with stop := b.start + secs (v.bound (toSecs (t0 - t))) } else b)
  | .endEpoch => .ok (if |corr| > 1 / 1000
      then { b with stop := b.stop + secs (v.bound (toSecs (b.stop + secs corr - t))) } else b)
  | .startEpoch => .ok (if |corr| > 1 / 1000
      then { b with stop := b.stop + secs (v.bound (toSecs (b.start + secs corr - t0))), start := b.start + secs corr }
      else b)
  | .thrustLevel => .ok { b with level := v.bound (b.level + corr) }
  | c => match c.angle with
    | some az => b.addAngle az c corr
    | none => (unwrapO c.slot).bind fun s => b.modify s.1 s.2 fun x => v.bound (x + corr)

/-! ### The orbit and the problem -/

variable {Fr E LF : Type} {nv no : Nat}

/-- `Orbit`: frame, epoch, position and velocity. -/
structure Orb (Fr : Type) where
  frame : Fr
  epoch : Int
  pos : V3
  vel : V3

/-- The field `orbit` of a spacecraft. -/
def orbitOf (s : Craft ℝ Fr) : Orb Fr := ⟨s.frame, s.epoch, s.pos, s.vel⟩

/-- `with_orbit`. cosmic/spacecraft.rs:290-293. -/
def withOrbit (s : Craft ℝ Fr) (o : Orb Fr) : Craft ℝ Fr :=
  { s with frame := o.frame, epoch := o.epoch, pos := o.pos, vel := o.vel }

/-- `apply_dv_km_s`. -/
def addVel (s : Craft ℝ Fr) (dv : V3) : Craft ℝ Fr := { s with vel := fun i => s.vel i + dv i }

/-- A value with its partials with respect to position and velocity (`OrbitGrad::partial_for`). -/
abbrev Dual := ℝ × (Fin 6 → ℝ)

/-- `Targeter` with the functions of other modules it calls. md/opti/targeter.rs:37-51.
* `prop m h s t`: the propagator, with the maneuver `m` as guidance law if any, with the maximum step `h` if
  changed, from `s` until `t`;
* `transform`: the almanac; `bplane`: B·R, B·T and the linearized time of flight; `element`: the orbital
  elements; `dcm`: the rotation from a local frame to the inertial frame;
* `secs`: seconds to a duration. -/
structure Cfg (Fr E LF : Type) (nv no : Nat) where
  prop : Option Burn → Option Int → Craft ℝ Fr → Int → Option (Craft ℝ Fr)
  transform : Fr → Orb Fr → Option (Orb Fr)
  bplane : Orb Fr → Option (Dual × Dual × Dual)
  element : E → Orb Fr → Option Dual
  dcm : LF → Orb Fr → Option (Matrix (Fin 3) (Fin 3) ℝ)
  secs : ℝ → Int
  objs : Fin no → Objective E
  vars : Fin nv → Variable
  objFrame : Option Fr
  corrFrame : Option LF
  iterations : Nat

/-- `TargeterSolution`, without the duration of the computation and the copies of the variables and of the
objectives. md/opti/solution.rs:33-50. -/
structure Sol (Fr : Type) (nv no : Nat) where
  corrected : Craft ℝ Fr
  achieved : Craft ℝ Fr
  correction : Fin nv → ℝ
  errors : Fin no → ℝ
  iterations : Nat

/-- The orbit in the frame of the objectives. raphson_finite_diff.rs:261-269. -/
def Cfg.view (C : Cfg Fr E LF nv no) (o : Orb Fr) : Option (Orb Fr) := C.objFrame.elim (some o) fun f => C.transform f o

/-- Whether an objective is of the B-plane. raphson_finite_diff.rs:50-56. -/
def Cfg.isB (C : Cfg Fr E LF nv no) : Bool := decide (∃ i, (C.objs i).param.isB = true)

/-- The B-plane, built once if needed. raphson_finite_diff.rs:277-280. -/
def Cfg.bp (C : Cfg Fr E LF nv no) (o : Orb Fr) : Option (Option (Dual × Dual × Dual)) :=
  if C.isB then (C.bplane o).map some else some none

/-- The value of an objective with its partials; other parameters are `unreachable!()`.
raphson_finite_diff.rs:291-306. -/
def Cfg.value (C : Cfg Fr E LF nv no) (bp : Option (Dual × Dual × Dual)) (o : Orb Fr) (p : Param E) : Res Dual :=
  match p with
  | .bDotR => (unwrapO bp).bind fun b => .ok b.1
  | .bDotT => (unwrapO bp).bind fun b => .ok b.2.1
  | .bLtof => (unwrapO bp).bind fun b => .ok b.2.2
  | .element e => orErr (C.element e o) .astro
  | .other => .panic

/-- Adding to a component of a vector of six, out of bounds beyond. -/
noncomputable def addIdx (c : Fin 6 → ℝ) (k : Option Nat) (x : ℝ) : Res (Fin 6 → ℝ) :=
  (unwrapO k).bind fun k => if h : k < 6 then .ok (Function.update c ⟨k, h⟩ (c ⟨k, h⟩ + x)) else .panic

/-- The last three components. -/
def velPart (c : Fin 6 → ℝ) : V3 := fun i => c ⟨3 + i.val, by omega⟩

/-- Applying a correction to the state: the velocity part rotated from the correction frame, or all of it.
raphson_finite_diff.rs:180-195, 433-452, 523-540, 697-711. -/
noncomputable def Cfg.applyCorr (C : Cfg Fr E LF nv no) (x : Craft ℝ Fr) (c : Fin 6 → ℝ) : Option (Craft ℝ Fr) :=
  C.corrFrame.elim (some (x.add6 c)) fun f => (C.dcm f (orbitOf x)).map fun D => addVel x (D *ᵥ velPart c)

/-- The propagation to the achievement epoch, through the burn for a finite burn.
raphson_finite_diff.rs:226-257, 455-487. -/
def Cfg.flow (C : Cfg Fr E LF nv no) (finite : Bool) (b : Burn) (x : Craft ℝ Fr) (t : Int) : Option (Craft ℝ Fr) :=
  if finite then
    (C.prop none none x b.start).bind fun pre =>
    (C.prop (some b) (some b.dur) { pre with mode := .thrust } b.stop).bind fun post =>
    C.prop (some b) none post t
  else C.prop none none x t

/-- The perturbed state, the perturbed maneuver, and whether the perturbation was opposed.
raphson_finite_diff.rs:331-453. -/
noncomputable def Cfg.perturb (C : Cfg Fr E LF nv no) (x : Craft ℝ Fr) (b : Burn) (v : Variable) :
    Res (Craft ℝ Fr × Burn × Bool) :=
  if v.comp.isFinite then (b.perturb C.secs v).bind fun p => .ok (x, p)
  else (addIdx 0 v.comp.vecIndex v.pert).bind fun c => (unwrapO (C.applyCorr x c)).bind fun x' => .ok (x', b, false)

/-- An entry of the Jacobian, for the objective `o` whose value is `achieved`.
raphson_finite_diff.rs:331-536. -/
noncomputable def Cfg.jacEntry (C : Cfg Fr E LF nv no) (finite : Bool) (x : Craft ℝ Fr) (b : Burn) (t : Int)
    (achieved : ℝ) (o : Objective E) (v : Variable) : Res ℝ :=
  (C.perturb x b v).bind fun p =>
  (unwrapO (C.flow finite p.2.1 (if finite then x else p.1) t)).bind fun xf =>
  (unwrapO (C.view (orbitOf xf))).bind fun y =>
  (unwrapO (C.bp y)).bind fun bp =>
  (C.value bp y o.param).unwrap.bind fun w =>
    let q := (w.1 - achieved) / v.pert
    let q := if p.2.2 then -q else q
    .ok (if v.comp = .thrustLevel then -q else q)

/-- What one pass computes before it tests the convergence. -/
structure Eval (Fr : Type) (nv no : Nat) where
  xf : Orb Fr
  met : Fin no → Bool
  err : Fin no → ℝ
  jac : Matrix (Fin no) (Fin nv) ℝ

/-- The nominal propagation, the errors and the Jacobian. raphson_finite_diff.rs:221-536. -/
noncomputable def Cfg.evaluate (C : Cfg Fr E LF nv no) (finite : Bool) (x : Craft ℝ Fr) (b : Burn) (t : Int) :
    Res (Eval Fr nv no) :=
  (orErr (C.flow finite b x t) .prop).bind fun xf =>
  (orErr (C.view (orbitOf xf)) .astro).bind fun y =>
  (orErr (C.bp y) .astro).bind fun bp =>
  (seqFin no fun i => (C.value bp y (C.objs i).param).bind fun w =>
    (seqFin nv fun j => C.jacEntry finite x b t w.1 (C.objs i) (C.vars j)).bind fun row => .ok (w.1, row)).bind fun r =>
  .ok ⟨orbitOf xf, fun i => (C.objs i).met (r i).1, fun i => (C.objs i).error (r i).1, of fun i j => (r i).2 j⟩

/-- The step of a state variable: at most the maximum step, else within the bounds.
raphson_finite_diff.rs:684-692. -/
noncomputable def Variable.step (v : Variable) (d : ℝ) : ℝ :=
  if |d| > |v.maxStep| then |v.maxStep| * (if d < 0 then -1 else 1)
  else if d > v.maxValue then v.maxValue else if d < v.minValue then v.minValue else d

/-- The correction of a variable which is added to the total: only that of state variables is limited.
raphson_finite_diff.rs:595-694. -/
noncomputable def Variable.limited (v : Variable) (d : ℝ) : ℝ := if v.comp.isFinite then d else v.step d

/-- Adding the corrections of the state variables, one after the other. raphson_finite_diff.rs:512-516, 693. -/
noncomputable def Cfg.stateCorr (C : Cfg Fr E LF nv no) (w : Fin nv → ℝ) : Res (Fin 6 → ℝ) :=
  foldRes (fun c i => if (C.vars i).comp.isFinite then .ok c else addIdx c (C.vars i).comp.vecIndex (w i))
    (List.finRange nv) 0

/-- Correcting the maneuver by the finite burn variables, one after the other.
raphson_finite_diff.rs:599-682. -/
noncomputable def Cfg.burnCorr (C : Cfg Fr E LF nv no) (t0 t : Int) (b : Burn) (w : Fin nv → ℝ) : Res Burn :=
  foldRes (fun b i => if (C.vars i).comp.isFinite then b.correct C.secs t0 t (C.vars i) (w i) else .ok b)
    (List.finRange nv) b

/-- The solution. raphson_finite_diff.rs:505-551. -/
noncomputable def Cfg.finish (C : Cfg Fr E LF nv no) (start : Craft ℝ Fr) (finite : Bool) (total : Fin nv → ℝ)
    (ev : Eval Fr nv no) (it : Nat) : Res (Sol Fr nv no) :=
  (if finite then .ok 0 else C.stateCorr total).bind fun c =>
  (orErr (C.applyCorr start c) .astro).bind fun x =>
  .ok ⟨x, withOrbit start ev.xf, total, ev.err, it⟩

/-- Whether the norm of the errors did not change; the first previous norm is infinite (`none`).
raphson_finite_diff.rs:565-570. -/
noncomputable def stalled {n : Nat} (prev : Option ℝ) (e : Fin n → ℝ) : Bool :=
  prev.elim false fun p => decide (|nrm e - p| < 1 / 10000000000)

/-- The iterations, `fuel` of them left. The corrections of the maneuver and of the state are computed in
one loop in the code: their outcomes only differ when both fail. raphson_finite_diff.rs:221-747. -/
noncomputable def Cfg.loop (C : Cfg Fr E LF nv no) (start : Craft ℝ Fr) (t0 t : Int) (finite : Bool) :
    Nat → Nat → Option ℝ → Burn → Craft ℝ Fr → (Fin nv → ℝ) → Res (Sol Fr nv no)
  | 0, _, _, _, _, _ => .err .tooMany
  | fuel + 1, it, prev, b, x, total =>
    (C.evaluate finite x b t).bind fun ev =>
    if ∀ i, ev.met i = true then C.finish start finite total ev it
    else if stalled prev ev.err then .err .ineffective
    else (orErr (pseudoInverse ev.jac) .singular).bind fun P =>
      (C.burnCorr t0 t b (P *ᵥ ev.err)).bind fun b' =>
      (C.stateCorr fun i => (C.vars i).limited ((P *ᵥ ev.err) i)).bind fun c =>
      (orErr (C.applyCorr x c) .astro).bind fun x' =>
      Cfg.loop C start t0 t finite fuel (it + 1) (some (nrm ev.err)) b' x'
        fun i => total i + (C.vars i).limited ((P *ᵥ ev.err) i)

/-- The frame check of a variable. raphson_finite_diff.rs:101-113. -/
def Cfg.frameCheck (C : Cfg Fr E LF nv no) (v : Variable) : Res Unit :=
  C.corrFrame.elim (.ok ()) fun _ => (unwrapO v.comp.vecIndex).bind fun k => if k < 3 then .err .frame else .ok ()

/-- One variable of the loop of the initial guesses; the state is the maneuver, whether it is a finite burn
target, and the correction of the state. raphson_finite_diff.rs:97-175. -/
noncomputable def Cfg.guessOne (C : Cfg Fr E LF nv no) (thruster : Bool) (s : Burn × Bool × (Fin 6 → ℝ)) (i : Fin nv) :
    Res (Burn × Bool × (Fin 6 → ℝ)) :=
  if ¬ (C.vars i).Valid then .err .variable
  else (C.frameCheck (C.vars i)).bind fun _ =>
    if (C.vars i).comp.isFinite then
      if thruster then (s.1.guess C.secs (C.vars i)).bind fun b => .ok (b, true, s.2.2) else .err .noThruster
    else (addIdx s.2.2 (C.vars i).comp.vecIndex (C.vars i).guess).bind fun c => .ok (s.1, s.2.1, c)

/-- `try_achieve_fd`. raphson_finite_diff.rs:41-748. -/
noncomputable def Cfg.tryAchieve (C : Cfg Fr E LF nv no) (x0 : Craft ℝ Fr) (t0 t : Int) : Res (Sol Fr nv no) :=
  if no = 0 then .err .underdetermined
  else (orErr (C.prop none none x0 t0) .prop).bind fun start =>
    (foldRes (C.guessOne start.thruster.isSome) (List.finRange nv) (Burn.initial t0 t, false, 0)).bind fun g =>
    (if g.2.1 then .ok start else orErr (C.applyCorr start g.2.2) .astro).bind fun x =>
    C.loop start t0 t g.2.1 (C.iterations + 1) 0 none g.1 x fun i => (C.vars i).guess

/-! ### Using a solution -/

/-- `TargeterSolution::is_finite_burn`. md/opti/solution.rs:54-61. -/
def Cfg.isFinite (C : Cfg Fr E LF nv no) : Bool := decide (∃ i, (C.vars i).comp.isFinite = true)

/-- One variable in `to_mnvr`: every variable is a correction of the maneuver, `unreachable!()` for
those of the state. md/opti/solution.rs:88-158. -/
noncomputable def Burn.correctAny (secs : ℝ → Int) (t0 t : Int) (b : Burn) (v : Variable) (w : ℝ) : Res Burn :=
  match v.comp with
  | .positionX | .positionY | .positionZ | .velocityX | .velocityY | .velocityZ => .panic
  | _ => b.correct secs t0 t v w

/-- `to_mnvr`. md/opti/solution.rs:64-162. -/
noncomputable def Cfg.toMnvr (C : Cfg Fr E LF nv no) (s : Sol Fr nv no) : Res Burn :=
  if C.isFinite then
    foldRes (fun b i => b.correctAny C.secs s.corrected.epoch s.achieved.epoch (C.vars i) (s.correction i))
      (List.finRange nv) (Burn.initial s.corrected.epoch s.achieved.epoch)
  else .err .notFinite

/-- The propagation of `apply_with_traj`: with the maneuver if there is one, without it if `to_mnvr` is an
error. md/opti/targeter.rs:273-290. -/
noncomputable def Cfg.applyFlow (C : Cfg Fr E LF nv no) (s : Sol Fr nv no) : Res (Craft ℝ Fr) :=
  match C.toMnvr s with
  | .ok b => orErr (C.prop (some b) none s.corrected s.achieved.epoch) .prop
  | .err _ => orErr (C.prop none none s.corrected s.achieved.epoch) .prop
  | .panic => .panic

/-- `apply`, `apply_with_traj` without the trajectory. md/opti/targeter.rs:257-352. -/
noncomputable def Cfg.apply (C : Cfg Fr E LF nv no) (s : Sol Fr nv no) : Res (Craft ℝ Fr) :=
  (C.applyFlow s).bind fun xf =>
  (orErr (C.bp (orbitOf xf)) .astro).bind fun bp =>
  (seqFin no fun i => C.value bp (orbitOf xf) (C.objs i).param).bind fun w =>
  if ∀ i, ¬ |(C.objs i).desired - (w i).1| > (C.objs i).tol then .ok xf else .err .verification

/-! ### The targeter with the state transition matrix -/

/-- The components which `try_achieve_dual` supports. raphson_hyperdual.rs:70-98. -/
def Vary.stateIndex : Vary → Option (Fin 6)
  | .positionX => some 0
  | .positionY => some 1
  | .positionZ => some 2
  | .velocityX => some 3
  | .velocityY => some 4
  | .velocityZ => some 5
  | _ => none

/-- Adding to the components of the state named by the variables. raphson_hyperdual.rs:70-98, 250-267, 314-338. -/
noncomputable def Cfg.dualCorr (C : Cfg Fr E LF nv no) (x : Craft ℝ Fr) (w : Fin nv → ℝ) : Res (Craft ℝ Fr) :=
  foldRes (fun x i => (orErr (C.vars i).comp.stateIndex .unsupported).bind fun k => .ok (x.add6 (Pi.single k (w i))))
    (List.finRange nv) x

/-- The step of a variable; the maximum step is not made positive. raphson_hyperdual.rs:299-305. -/
noncomputable def Variable.dualStep (v : Variable) (d : ℝ) : ℝ :=
  if |d| > v.maxStep then v.maxStep * (if d < 0 then -1 else 1)
  else if d > v.maxValue then v.maxValue else if d < v.minValue then v.minValue else d

/-- The column of the state transition matrix, restricted to position and velocity.
raphson_hyperdual.rs:233-240. -/
def stmColumn (m : Matrix (Fin 9) (Fin 9) ℝ) (k : Fin 6) : Fin 6 → ℝ := fun r => m ⟨r.val, by omega⟩ ⟨k.val, by omega⟩

/-- What one pass of `try_achieve_dual` computes. raphson_hyperdual.rs:126-241. -/
noncomputable def Cfg.dualEval (C : Cfg Fr E LF nv no) (x : Craft ℝ Fr) (t : Int) :
    Res (Craft ℝ Fr × Eval Fr nv no) :=
  (orErr (C.prop none none x.resetStm t) .prop).bind fun xf =>
  (unwrapO xf.stm).bind fun Φ =>
  (orErr (C.view (orbitOf xf)) .astro).bind fun y =>
  (orErr (C.bp y) .astro).bind fun bp =>
  (seqFin no fun i => (C.value bp y (C.objs i).param).bind fun w =>
    (seqFin nv fun j => (unwrapO (C.vars j).comp.stateIndex).bind fun k => .ok (w.2 ⬝ᵥ stmColumn Φ k)).bind
      fun row => .ok (w.1, row)).bind fun r =>
  .ok (xf, ⟨orbitOf xf, fun i => (C.objs i).met (r i).1, fun i => (C.objs i).error (r i).1, of fun i j => (r i).2 j⟩)

/-- The iterations. raphson_hyperdual.rs:126-348. -/
noncomputable def Cfg.dualLoop (C : Cfg Fr E LF nv no) (start : Craft ℝ Fr) (t : Int) :
    Nat → Nat → Option ℝ → Craft ℝ Fr → (Fin nv → ℝ) → Res (Sol Fr nv no)
  | 0, _, _, _, _ => .err .tooMany
  | fuel + 1, it, prev, x, total =>
    (C.dualEval x t).bind fun ev =>
    if ∀ i, ev.2.met i = true then
      (C.dualCorr start total).bind fun s => .ok ⟨s, ev.1, total, ev.2.err, it⟩
    else if stalled prev ev.2.err then .err .ineffective
    else (orErr (pseudoInverse ev.2.jac) .singular).bind fun P =>
      (C.dualCorr x.resetStm fun i => (C.vars i).dualStep ((P *ᵥ ev.2.err) i)).bind fun x' =>
      Cfg.dualLoop C start t fuel (it + 1) (some (nrm ev.2.err)) x'
        fun i => total i + (C.vars i).dualStep ((P *ᵥ ev.2.err) i)

/-- `try_achieve_dual`. raphson_hyperdual.rs:37-351. -/
noncomputable def Cfg.tryDual (C : Cfg Fr E LF nv no) (x0 : Craft ℝ Fr) (t0 t : Int) : Res (Sol Fr nv no) :=
  if no = 0 then .err .underdetermined
  else (orErr (C.prop none none x0 t0) .prop).bind fun start =>
    (C.dualCorr start fun i => (C.vars i).guess).bind fun x =>
    C.dualLoop start t (C.iterations + 1) 0 none x fun i => (C.vars i).guess

end Verif.Target
