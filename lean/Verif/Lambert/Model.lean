import Mathlib.Analysis.SpecialFunctions.Pow.Real
import Mathlib.Analysis.SpecialFunctions.Arsinh
import Mathlib.Analysis.SpecialFunctions.Trigonometric.Inverse
import Mathlib.LinearAlgebra.CrossProduct
import Mathlib.Topology.Algebra.InfiniteSum.Defs
import Verif.MathU.Model
/-!
Model of the Lambert solvers, nyx-core/src/tools/lambert. Numbers are real. A value that is not a finite number in
the code, because of a division by zero or of a function taken outside of its domain, is `none`.
-/
namespace Verif.Lambert
open Matrix
open Verif.MathU (V3 nrm atan2)

/-- `LambertError`, errors.rs:136-147. -/
inductive Fault where
  | tooClose | notReasonablePhi | multiRevNotSupported | notFeasible (m mMax : Nat) | maxIter (n : Nat)

/-- What a call does: it returns a value, returns an error, or panics. -/
inductive Res (α : Type) where
  | ok (a : α) | fault (e : Fault) | panic

/-- The operator `?`. -/
def Res.bind {α β : Type} (x : Res α) (f : α → Res β) : Res β :=
  match x with
  | .ok a => f a
  | .fault e => .fault e
  | .panic => .panic

/-- A frame, of which only the identifier and the gravitational parameter matter here. -/
structure Frame where
  id : Int × Int
  mu : Option ℝ

/-- An orbital state: position, velocity, epoch in nanoseconds and frame. -/
structure Orbit where
  pos : V3
  vel : V3
  epoch : Int
  frame : Frame

/-- `LambertInput`, tools/lambert/mod.rs:84-88. -/
structure Input where
  initial : Orbit
  final : Orbit

open Classical in
/-- `LambertInput::from_planetary_states`, tools/lambert/mod.rs:91-114. `none` is the error. -/
noncomputable def fromPlanetaryStates (initial final : Orbit) : Option Input :=
  if final.frame ≠ initial.frame then none
  else match initial.frame.mu with
    | none => none
    | some _ => some ⟨initial, final⟩

/-- `LambertInput::mu_km2_s3`, tools/lambert/mod.rs:117-119, whose `unwrap` panics without a parameter. -/
def Input.mu (inp : Input) : Res ℝ :=
  match inp.initial.frame.mu with
  | some m => .ok m
  | none => .panic

/-- The time of flight in seconds, tools/lambert/godding.rs:47 and izzo.rs:47. -/
noncomputable def Input.tof (inp : Input) : ℝ := ((inp.final.epoch - inp.initial.epoch : Int) : ℝ) / 10 ^ 9

/-- `TransferKind`, tools/lambert/mod.rs:41-46. -/
inductive Kind where
  | auto | shortWay | longWay | nRevs (n : Nat)

/-- `TransferKind::direction_of_motion`, tools/lambert/mod.rs:59-81. -/
noncomputable def Kind.direction (k : Kind) (rf ri : V3) : Res ℝ :=
  match k with
  | .auto =>
    let d := atan2 (rf 1) (rf 0) - atan2 (ri 1) (ri 0)
    let dnu := if d < 0 then d + 2 * Real.pi else d
    if Real.pi < dnu then .ok (-1) else .ok 1
  | .shortWay => .ok 1
  | .longWay => .ok (-1)
  | .nRevs _ => .fault .multiRevNotSupported

/-- `LambertSolution`, tools/lambert/mod.rs:124-130. A velocity that is not finite is `none`. -/
structure Solution where
  vInit : Option V3
  vFinal : Option V3
  phi : ℝ
  input : Input

/-- `v_inf_outgoing_km_s`, tools/lambert/mod.rs:134-136. -/
def Solution.vInfOut (s : Solution) : Option V3 := s.vInit.map fun v => s.input.initial.vel - v

/-- `v_inf_incoming_km_s`, tools/lambert/mod.rs:139-141. -/
def Solution.vInfIn (s : Solution) : Option V3 := s.vFinal.map fun v => s.input.final.vel - v

/-- `transfer_orbit`, tools/lambert/mod.rs:144-147. -/
def Solution.transferOrbit (s : Solution) : Option Orbit :=
  s.vInit.map fun v => ⟨s.input.initial.pos, v, s.input.initial.epoch, s.input.initial.frame⟩

/-- `arrival_orbit`, tools/lambert/mod.rs:150-153. -/
def Solution.arrivalOrbit (s : Solution) : Option Orbit :=
  s.vFinal.map fun v => ⟨s.input.final.pos, v, s.input.final.epoch, s.input.final.frame⟩

/-- `v_inf_outgoing_declination_deg`, tools/lambert/mod.rs:156-160. For a zero vector the code divides zero by zero; the
theorems exclude that case. -/
noncomputable def Solution.declination (s : Solution) : Option ℝ :=
  s.vInfOut.map fun v => Real.arcsin ((-v) 2 / nrm (-v)) * 180 / Real.pi

/-- `v_inf_outgoing_right_ascension_deg`, tools/lambert/mod.rs:163-167. -/
noncomputable def Solution.rightAscension (s : Solution) : Option ℝ :=
  s.vInfOut.map fun v => atan2 ((-v) 1) ((-v) 0) * 180 / Real.pi

/-- `c3_km2_s2`, tools/lambert/mod.rs:170-172. -/
def Solution.c3 (s : Solution) : Option ℝ := s.vInfOut.map fun v => v ⬝ᵥ v

/-! ### Gooding -/

/-- The constant `A`, tools/lambert/godding.rs:50-60. -/
noncomputable def goodA (dm : ℝ) (r1 r2 : V3) : ℝ :=
  dm * Real.sqrt (nrm r1 * nrm r2 * (1 + r1 ⬝ᵥ r2 / (nrm r1 * nrm r2)))

/-- The variables of the loop of `gooding`. The field `seen`, which is not in the code, keeps the values of `phi`,
`c2` and `c3` from which `y` and `cur` were computed. -/
structure Iter where
  lower : ℝ
  upper : ℝ
  phi : ℝ
  c2 : ℝ
  c3 : ℝ
  cur : ℝ
  y : ℝ
  seen : ℝ × ℝ × ℝ

/-- tools/lambert/godding.rs:66-74. -/
noncomputable def Iter.start : Iter :=
  ⟨-4 * Real.pi ^ 2, 4 * Real.pi ^ 2, 0, 1 / 2, 1 / 6, 0, 0, (0, 1 / 2, 1 / 6)⟩

/-- The auxiliary variable `y`, tools/lambert/godding.rs:85 and 89. -/
noncomputable def yOf (a n1 n2 phi c2 c3 : ℝ) : ℝ := n1 + n2 + a * (phi * c3 - 1) / Real.sqrt c2

/-- The loop that increases `phi` until `y` is not negative, tools/lambert/godding.rs:87-93. The first argument
counts the rounds that are left. -/
noncomputable def push (a n1 n2 c2 c3 : ℝ) : Nat → ℝ → ℝ → ℝ × ℝ
  | 0, phi, y => (phi, y)
  | k + 1, phi, _ =>
    let phi' := phi + 1 / 10
    let y' := yOf a n1 n2 phi' c2 c3
    if 0 ≤ y' then (phi', y') else push a n1 n2 c2 c3 k phi' y'

/-- The functions `c2` and `c3` of `phi`, tools/lambert/godding.rs:110-122. -/
noncomputable def stumpff (phi : ℝ) : ℝ × ℝ :=
  if phi > 1 / 10 ^ 4 then
    ((1 - Real.cos (Real.sqrt phi)) / phi, (Real.sqrt phi - Real.sin (Real.sqrt phi)) / Real.sqrt (phi ^ 3))
  else if phi < -(1 / 10 ^ 4) then
    ((1 - Real.cosh (Real.sqrt (-phi))) / phi,
      (Real.sinh (Real.sqrt (-phi)) - Real.sqrt (-phi)) / Real.sqrt ((-phi) ^ 3))
  else (1 / 2, 1 / 6)

/-- The choice of `phi` and `y`, tools/lambert/godding.rs:85-96. -/
noncomputable def chooseY (a n1 n2 : ℝ) (s : Iter) : ℝ × ℝ :=
  let y := yOf a n1 n2 s.phi s.c2 s.c3
  if 0 < a ∧ y < 0 then push a n1 n2 s.c2 s.c3 500 s.phi y else (s.phi, y)

/-- The time of flight of `y`, tools/lambert/godding.rs:99. -/
noncomputable def timeOf (mu a c2 c3 y : ℝ) : ℝ :=
  (Real.sqrt (y / c2) ^ 3 * c3 + a * Real.sqrt y) / Real.sqrt mu

/-- One round of the loop of `gooding`, tools/lambert/godding.rs:85-122. -/
noncomputable def goodStep (mu a n1 n2 tof : ℝ) (s : Iter) : Res Iter :=
  let c := chooseY a n1 n2 s
  if 0 < a ∧ c.2 < 0 then .fault .notReasonablePhi
  else
    let cur := timeOf mu a s.c2 s.c3 c.2
    let lower := if cur < tof then c.1 else s.lower
    let upper := if cur < tof then s.upper else c.1
    let phi := (upper + lower) / 2
    .ok ⟨lower, upper, phi, (stumpff phi).1, (stumpff phi).2, cur, c.2, (c.1, s.c2, s.c3)⟩

open Classical in
/-- The loop of `gooding`, tools/lambert/godding.rs:77-124. The first argument counts the rounds that are left. -/
noncomputable def goodLoop (mu a n1 n2 tof : ℝ) : Nat → Iter → Res Iter
  | k, s =>
    if |s.cur - tof| > 1 / 10 ^ 4 then
      match k with
      | 0 => .fault (.maxIter 1000)
      | k + 1 => (goodStep mu a n1 n2 tof s).bind (goodLoop mu a n1 n2 tof k)
    else .ok s

/-- Division of a vector by a scalar, `none` when the scalar is zero. -/
noncomputable def vdiv (v : V3) (g : ℝ) : Option V3 := if g = 0 then none else some ((1 / g) • v)

/-- The velocities from the solution of the loop, tools/lambert/godding.rs:126-134. -/
noncomputable def goodVelocities (mu a y : ℝ) (r1 r2 : V3) : Option V3 × Option V3 :=
  let f := 1 - y / nrm r1
  let gDot := 1 - y / nrm r2
  let g := a * Real.sqrt (y / mu)
  (vdiv (r2 - f • r1) g, vdiv (gDot • r2 - r1) g)

/-- The test on targets that are too close, tools/lambert/godding.rs:57-64. -/
noncomputable def tooClose (a : ℝ) (r1 r2 : V3) : Prop :=
  atan2 (r2 1) (r2 0) - atan2 (r1 1) (r1 0) < 5 / 10 ^ 5 / 180 * Real.pi ∧ |a| < 1 / 10 ^ 4

open Classical in
/-- `gooding`, tools/lambert/godding.rs:44-137. -/
noncomputable def gooding (inp : Input) (kind : Kind) : Res Solution :=
  inp.mu.bind fun mu =>
    (kind.direction inp.final.pos inp.initial.pos).bind fun dm =>
      let a := goodA dm inp.initial.pos inp.final.pos
      if tooClose a inp.initial.pos inp.final.pos then .fault .tooClose
      else (goodLoop mu a (nrm inp.initial.pos) (nrm inp.final.pos) inp.tof 1001 Iter.start).bind fun s =>
        let v := goodVelocities mu a s.y inp.initial.pos inp.final.pos
        .ok ⟨v.1, v.2, s.phi, inp⟩

/-! ### Izzo -/

/-- `reconstruct`, tools/lambert/izzo.rs:139-155. -/
noncomputable def reconstruct (x y r1 r2 ll gamma rho sigma : ℝ) : ℝ × ℝ × ℝ × ℝ :=
  (gamma * ((ll * y - x) - rho * (ll * y + x)) / r1,
   -gamma * ((ll * y - x) + rho * (ll * y + x)) / r2,
   gamma * sigma * (y + ll * x) / r1,
   gamma * sigma * (y + ll * x) / r2)

/-- `compute_y`, tools/lambert/izzo.rs:202-204. -/
noncomputable def computeY (x ll : ℝ) : ℝ := Real.sqrt (1 - ll ^ 2 * (1 - x ^ 2))

/-- `compute_psi`, tools/lambert/izzo.rs:209-221. The arc cosine is taken within [-1, 1] when `-1 ≤ x`. -/
noncomputable def computePsi (x y ll : ℝ) : ℝ :=
  if 1 < x then Real.arsinh ((y - x * ll) * Real.sqrt (x ^ 2 - 1))
  else if x < 1 then Real.arccos (x * y + ll * (1 - x ^ 2))
  else 0

/-- The terms that `hyp2f1b` adds up, tools/lambert/izzo.rs:352-357. -/
noncomputable def hypTerm (x : ℝ) : Nat → ℝ
  | 0 => 1
  | n + 1 => hypTerm x n * ((3 + n) * (1 + n) / (5 / 2 + n) * x / (n + 1))

/-- `hyp2f1b`, tools/lambert/izzo.rs:347-366: the code adds terms until the sum does not change any more in floating
point; the model takes the sum of the series. The result is infinite for `x ≥ 1`, and the series diverges for
`x ≤ -1`. -/
noncomputable def hyp2f1b (x : ℝ) : Option ℝ :=
  if 1 ≤ x then none else if x ≤ -1 then none else some (∑' n, hypTerm x n)

/-- The time of flight as a function of `x` with the series, tools/lambert/izzo.rs:231-235. -/
noncomputable def tofSeries (x y ll : ℝ) : Option ℝ :=
  let eta := y - ll * x
  (hyp2f1b ((1 - ll - x * eta) * (1 / 2))).map fun h =>
    (eta ^ 3 * (4 / 3 * h) + 4 * ll * eta) * (1 / 2)

/-- The time of flight as a function of `x` in closed form, tools/lambert/izzo.rs:237-244. It is not a number for
`x < -1`, where the angle is not one, and for `x = ±1`, where the denominator vanishes. -/
noncomputable def tofClosed (x y ll : ℝ) (m : Nat) : Option ℝ :=
  if x ≤ -1 then none else if x = 1 then none
  else some (((computePsi x y ll + m * Real.pi) / Real.sqrt |1 - x ^ 2| - x + ll * y) / (1 - x ^ 2))

/-- `tof_equation_y`, tools/lambert/izzo.rs:230-247. -/
noncomputable def tofEquationY (x y t0 ll : ℝ) (m : Nat) : Option ℝ :=
  (if m = 0 ∧ 3 / 5 < x ^ 2 ∧ x ^ 2 < 7 / 5 then tofSeries x y ll else tofClosed x y ll m).map fun t => t - t0

/-- `tof_equation`, tools/lambert/izzo.rs:224-227. -/
noncomputable def tofEquation (x t0 ll : ℝ) (m : Nat) : Option ℝ := tofEquationY x (computeY x ll) t0 ll m

/-- `tof_equation_p`, tools/lambert/izzo.rs:250-252. -/
noncomputable def tofP (x y t ll : ℝ) : ℝ := (3 * t * x - 2 + 2 * ll ^ 3 * x / y) / (1 - x ^ 2)

/-- `tof_equation_p2`, tools/lambert/izzo.rs:255-257. -/
noncomputable def tofP2 (x y t dt ll : ℝ) : ℝ :=
  (3 * t + 5 * x * dt + 2 * (1 - ll ^ 2) * ll ^ 3 / y ^ 3) / (1 - x ^ 2)

/-- `tof_equation_p3`, tools/lambert/izzo.rs:260-263. -/
noncomputable def tofP3 (x y dt ddt ll : ℝ) : ℝ :=
  (7 * x * ddt + 8 * dt - 6 * (1 - ll ^ 2) * ll ^ 5 * x / y ^ 5) / (1 - x ^ 2)

/-- One step of `halley`, tools/lambert/izzo.rs:381-399: `none` when the next value is not a number, else an error,
or the next value. The denominator of the step is not zero in what is modelled as a number. -/
noncomputable def halleyStep (p0 t0 ll : ℝ) : Option (Res ℝ) :=
  if 1 - p0 ^ 2 = 0 then none
  else
    let y := computeY p0 ll
    let fder := tofP p0 y t0 ll
    let fder2 := tofP2 p0 y t0 fder ll
    if |fder2| < 1 / 10 ^ 14 then some (.fault .tooClose)
    else
      let fder3 := tofP3 p0 y fder fder2 ll
      if 2 * fder2 ^ 2 - fder * fder3 = 0 then none
      else some (.ok (p0 - 2 * fder * fder2 / (2 * fder2 ^ 2 - fder * fder3)))

/-- The loops of `halley` and `householder` (tools/lambert/izzo.rs:380-402 and 415-438): steps until two values are
close enough. After a value that is not a number the code goes on until the last iteration. The last argument counts
the iterations that are left. -/
noncomputable def iterate (step : ℝ → Option (Res ℝ)) (atol rtol : ℝ) (maxiter : Nat) : Nat → ℝ → Res ℝ
  | 0, _ => .fault (.maxIter maxiter)
  | k + 1, p0 =>
    match step p0 with
    | none => .fault (.maxIter maxiter)
    | some (.ok p) => if |p - p0| < rtol * |p0| + atol then .ok p else iterate step atol rtol maxiter k p
    | some (.fault e) => .fault e
    | some .panic => .panic

/-- `halley`, tools/lambert/izzo.rs:372-402. -/
noncomputable def halley (p0 t0 ll atol rtol : ℝ) (maxiter : Nat) : Res ℝ :=
  iterate (fun p => halleyStep p t0 ll) atol rtol maxiter maxiter p0

/-- One step of `householder`, tools/lambert/izzo.rs:416-431. -/
noncomputable def householderStep (t0 ll : ℝ) (m : Nat) (p0 : ℝ) : Option (Res ℝ) :=
  let y := computeY p0 ll
  match tofEquationY p0 y t0 ll m with
  | none => none
  | some fval =>
    if 1 - p0 ^ 2 = 0 then none
    else
      let t := fval + t0
      let fder := tofP p0 y t ll
      let fder2 := tofP2 p0 y t fder ll
      let fder3 := tofP3 p0 y fder fder2 ll
      let num := fder ^ 2 - fval * fder2 / 2
      let den := fder * (fder ^ 2 - fval * fder2) + fder3 * fval ^ 2 / 6
      if |den| < 1 / 10 ^ 14 then some (.fault .tooClose)
      else some (.ok (p0 - fval * (num / den)))

/-- `householder`, tools/lambert/izzo.rs:406-439. -/
noncomputable def householder (p0 t0 ll : ℝ) (m : Nat) (atol rtol : ℝ) (maxiter : Nat) : Res ℝ :=
  iterate (householderStep t0 ll m) atol rtol maxiter maxiter p0

/-- The least time of flight of `m` revolutions, `compute_t_min`, tools/lambert/izzo.rs:267-293 (its second result,
the only one that is used). `none` is a value that is not a number. -/
noncomputable def computeTMin (ll : ℝ) (m : Nat) (atol rtol : ℝ) (maxiter : Nat) : Res (Option ℝ) :=
  if |ll - 1| < 1 / 10 ^ 9 then .ok (tofEquation 0 0 ll m)
  else if m = 0 then .ok (some 0)
  else match tofEquation (1 / 10) 0 ll m with
    | none => .fault (.maxIter maxiter)
    | some ti => (halley (1 / 10) ti ll atol rtol maxiter).bind fun x => .ok (tofEquation x 0 ll m)

/-- `initial_guess`, tools/lambert/izzo.rs:309-344. -/
noncomputable def initialGuess (tof ll : ℝ) (m : Nat) (lowPath : Bool) : ℝ :=
  if m = 0 then
    let t0 := Real.arccos ll + ll * Real.sqrt (1 - ll ^ 2)
    let t1 := 2 * (1 - ll ^ 3) / 3
    if tof ≥ t0 then (t0 / tof) ^ (2 / 3 : ℝ) - 1
    else if tof < t1 then 5 / 2 * t1 / tof * (t1 - tof) / (1 - ll ^ 5) + 1
    else Real.exp (Real.log 2 * Real.log (tof / t0) / Real.log (t1 / t0)) - 1
  else
    let termL := ((m * Real.pi + Real.pi) / (8 * tof)) ^ (2 / 3 : ℝ)
    let x0l := (termL - 1) / (termL + 1)
    let termR := (8 * tof / (m * Real.pi)) ^ (2 / 3 : ℝ)
    let x0r := (termR - 1) / (termR + 1)
    if lowPath then max x0l x0r else min x0l x0r

/-- The number of revolutions that may be possible, tools/lambert/izzo.rs:175-184. The conversion of the floor to
`u32` gives 0 for a negative number and at most `2 ^ 32 - 1`. -/
noncomputable def maxRevs (ll t : ℝ) (atol rtol : ℝ) (maxiter : Nat) : Res Nat :=
  let mMax := min ⌊t / Real.pi⌋.toNat (2 ^ 32 - 1)
  if t < Real.arccos ll + ll * Real.sqrt (1 - ll ^ 2) + mMax * Real.pi ∧ 0 < mMax then
    (computeTMin ll mMax atol rtol maxiter).bind fun tMin =>
      match tMin with
      | some tm => if t < tm then .ok (mMax - 1) else .ok mMax
      | none => .ok mMax
  else .ok mMax

/-- `find_xy`, tools/lambert/izzo.rs:162-200. -/
noncomputable def findXY (ll t : ℝ) (m maxiter : Nat) (atol rtol : ℝ) (lowPath : Bool) : Res (ℝ × ℝ) :=
  if |ll| < 1 then
    (maxRevs ll t atol rtol maxiter).bind fun mMax =>
      if mMax < m then .fault (.notFeasible m mMax)
      else (householder (initialGuess t ll m lowPath) t ll m atol rtol maxiter).bind fun x => .ok (x, computeY x ll)
  else .panic

/-- The semi-perimeter, tools/lambert/izzo.rs:50-57. -/
noncomputable def semi (r1 r2 : V3) : ℝ := (nrm r1 + nrm r2 + nrm (r2 - r1)) * (1 / 2)

/-- The normal to the plane of the transfer, pointing to +z, tools/lambert/izzo.rs:63-71. `none` if the positions are
aligned. -/
noncomputable def planeNormal (r1 r2 : V3) : Option V3 :=
  (vdiv (((1 / nrm r1) • r1) ⨯₃ ((1 / nrm r2) • r2)) (nrm (((1 / nrm r1) • r1) ⨯₃ ((1 / nrm r2) • r2)))).map fun h =>
    if h 2 < 0 then -h else h

/-- The direction that `izzo` uses: the number of revolutions of the kind, the direction otherwise, prograde for
several revolutions, tools/lambert/izzo.rs:77-90. -/
noncomputable def izzoDirection (kind : Kind) (r1 r2 : V3) : Res ℝ :=
  match kind with
  | .nRevs _ => .ok 1
  | k => k.direction r2 r1

/-- tools/lambert/izzo.rs:77-80. -/
def Kind.revs : Kind → Nat
  | .nRevs n => n
  | _ => 0

/-- The signed parameter lambda, tools/lambert/izzo.rs:74-75 and 94. -/
noncomputable def izzoLambda (dm : ℝ) (r1 r2 : V3) : ℝ :=
  if dm < 0 then -Real.sqrt (1 - nrm (r2 - r1) / semi r1 r2) else Real.sqrt (1 - nrm (r2 - r1) / semi r1 r2)

/-- The tangential direction at the position `r`, tools/lambert/izzo.rs:93-101. -/
noncomputable def tangent (dm : ℝ) (h r : V3) : Option V3 :=
  let t := if dm < 0 then ((1 / nrm r) • r) ⨯₃ h else h ⨯₃ ((1 / nrm r) • r)
  vdiv t (nrm t)

/-- The velocities from the solution `x`, `y`, tools/lambert/izzo.rs:117-127. -/
noncomputable def izzoVelocities (mu dm x y : ℝ) (r1 r2 : V3) : Option V3 × Option V3 :=
  let s := semi r1 r2
  let c := nrm (r2 - r1)
  let gamma := Real.sqrt (mu * s / 2)
  let rho := (nrm r1 - nrm r2) / c
  let sigma := Real.sqrt (1 - rho ^ 2)
  let v := reconstruct x y (nrm r1) (nrm r2) (izzoLambda dm r1 r2) gamma rho sigma
  ((planeNormal r1 r2).bind fun h => (tangent dm h r1).map fun t => v.1 • (1 / nrm r1) • r1 + v.2.2.1 • t,
   (planeNormal r1 r2).bind fun h => (tangent dm h r2).map fun t => v.2.1 • (1 / nrm r2) • r2 + v.2.2.2 • t)

/-- The time of flight without dimension, tools/lambert/izzo.rs:104. -/
noncomputable def izzoTime (mu tof : ℝ) (r1 r2 : V3) : ℝ := Real.sqrt (2 * mu / semi r1 r2 ^ 3) * tof

/-- `izzo`, tools/lambert/izzo.rs:44-135. -/
noncomputable def izzo (inp : Input) (kind : Kind) : Res Solution :=
  inp.mu.bind fun mu =>
    (izzoDirection kind inp.initial.pos inp.final.pos).bind fun dm =>
      (findXY (izzoLambda dm inp.initial.pos inp.final.pos) (izzoTime mu inp.tof inp.initial.pos inp.final.pos)
        kind.revs 1000 (1 / 10 ^ 4) (1 / 10 ^ 4) true).bind fun xy =>
          let v := izzoVelocities mu dm xy.1 xy.2 inp.initial.pos inp.final.pos
          .ok ⟨v.1, v.2, 0, inp⟩

end Verif.Lambert
