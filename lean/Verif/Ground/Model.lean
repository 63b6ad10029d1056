import Verif.Device.Model
import Verif.Force.Dual
import Verif.Rk.Model
import Mathlib.Analysis.SpecialFunctions.Pow.Real
import Mathlib.Analysis.SpecialFunctions.Trigonometric.Deriv
/-!
Model of the ground assets: nyx-core/src/od/groundpnt (mod.rs, ground_dynamics.rs, sensitivity.rs,
trk_device.rs). The export of solution.rs is not modelled.

* `f64` is the field `F` of the state (the rational numbers for the propagation, as in `Verif.Rk`, the real
  numbers elsewhere), epochs and durations are integers (nanoseconds).
* The conversions between geodetic coordinates and orbits (`Orbit::try_latlongalt`, `Orbit::latlongalt`) and
  the azimuth, elevation and range from a location belong to ANISE: they are parameters.
-/
namespace Verif.Ground
open Verif.Force Verif.Device Verif.Noise Verif.Spacecraft
open Verif.MathU (V3 atan2)
open Verif.Mc (Out)

/-- `GroundAsset`, od/groundpnt/mod.rs:42-58. -/
structure Asset (F Fr : Type) where
  lat : F
  lon : F
  height : F
  latRate : F
  lonRate : F
  heightRate : F
  epoch : Int
  frame : Fr
  stm : Option (Matrix (Fin 6) (Fin 6) F)

/-! ### The state -/

section State
variable {F Fr : Type}

/-- `GroundAsset::from_fixed`, od/groundpnt/mod.rs:61-76; the default is at rest and without matrix (od/groundpnt/mod.rs:232-246). -/
def fromFixed [Zero F] (lat lon height : F) (t : Int) (fr : Fr) : Asset F Fr :=
  ⟨lat, lon, height, 0, 0, 0, t, fr, none⟩

/-- The six variables of the state, in order (od/groundpnt/mod.rs:287-293). -/
def Asset.vars (a : Asset F Fr) : Fin 6 → F := ![a.lat, a.lon, a.height, a.latRate, a.lonRate, a.heightRate]

/-- `to_vector`, od/groundpnt/mod.rs:285-303. The matrix is stored by columns. -/
def Asset.toVector [Zero F] (a : Asset F Fr) : Fin 42 → F := fun k =>
  if h : k.val < 6 then a.vars ⟨k.val, h⟩
  else a.stm.elim 0 fun M => M ⟨(k.val - 6) % 6, by omega⟩ ⟨(k.val - 6) / 6, by omega⟩

/-- The matrix read by columns from the end of the vector (`from_column_slice`, od/groundpnt/mod.rs:331-333). -/
def readStm (v : Fin 42 → F) : Matrix (Fin 6) (Fin 6) F :=
  Matrix.of fun i j => v ⟨6 + (i.val + 6 * j.val), by omega⟩

/-- `set`, od/groundpnt/mod.rs:326-347. -/
def Asset.set (a : Asset F Fr) (t : Int) (v : Fin 42 → F) : Asset F Fr :=
  ⟨v 0, v 1, v 2, v 3, v 4, v 5, t, a.frame, a.stm.map fun _ => readStm v⟩

/-- `with_stm` and `reset_stm`, od/groundpnt/mod.rs:349-351, 364-367. -/
def Asset.withStm [Zero F] [One F] (a : Asset F Fr) : Asset F Fr :=
  ⟨a.lat, a.lon, a.height, a.latRate, a.lonRate, a.heightRate, a.epoch, a.frame, some 1⟩

/-- `unset_stm`, od/groundpnt/mod.rs:353-355. -/
def Asset.unsetStm (a : Asset F Fr) : Asset F Fr :=
  ⟨a.lat, a.lon, a.height, a.latRate, a.lonRate, a.heightRate, a.epoch, a.frame, none⟩

/-- `Add`, od/groundpnt/mod.rs:446-461, and `State::add`, od/groundpnt/mod.rs:369-371. -/
def Asset.add [Add F] (a : Asset F Fr) (d : Fin 6 → F) : Asset F Fr :=
  ⟨a.lat + d 0, a.lon + d 1, a.height + d 2, a.latRate + d 3, a.lonRate + d 4, a.heightRate + d 5,
   a.epoch, a.frame, a.stm⟩

/-- The parameters that matter for an asset: those of `value` and one for all the others. -/
inductive Param where
  | latitude | longitude | height | other
  deriving DecidableEq

/-- `value`, od/groundpnt/mod.rs:373-380. -/
def Asset.value (a : Asset F Fr) : Param → Option F
  | .latitude => some a.lat
  | .longitude => some a.lon
  | .height => some a.height
  | .other => none

/-- `export_params`, od/groundpnt/mod.rs:437-443. -/
def exportParams : List Param := [.latitude, .longitude, .height]

/-- `INTERPOLATION_SAMPLES`, md/trajectory/interpolatable.rs:22: the length of the arrays of `interpolate`. -/
def samples : Nat := 13

/-- `interpolate`, od/groundpnt/mod.rs:384-427. `herm` is `hermite_eval` of ANISE on the epochs, values and rates;
`none` is its error. More states than the arrays can hold panic (od/groundpnt/mod.rs:397). -/
def Asset.interpolate (et : Int → F) (herm : List F → List F → List F → F → Option (F × F)) (a : Asset F Fr)
    (t : Int) (states : List (Asset F Fr)) : Out (Asset F Fr) :=
  if samples < states.length then .panic
  else
    let ts := states.map fun s => et s.epoch
    (herm ts (states.map (·.lat)) (states.map (·.latRate)) (et t)).elim .err fun la =>
      (herm ts (states.map (·.lon)) (states.map (·.lonRate)) (et t)).elim .err fun lo =>
        (herm ts (states.map (·.height)) (states.map (·.heightRate)) (et t)).elim .err fun he =>
          .ok ⟨la.1, lo.1, he.1, la.2, lo.2, he.2, t, a.frame, a.stm⟩

end State

/-! ### The dynamics -/

/-- The derivative of the six variables, ground_dynamics.rs:42-49 and 82-89. -/
def dx {F Fr : Type} [Zero F] (a : Asset F Fr) : Fin 6 → F := ![a.latRate, a.lonRate, a.heightRate, 0, 0, 0]

/-- `GroundDynamics::eom`, ground_dynamics.rs:32-56: only the context of the step is used, the part of the
matrix is zero. -/
def eom {F Fr : Type} [Zero F] (ctx : Asset F Fr) (_τ : ℚ) (_v : Fin 42 → F) : Option (Fin 42 → F) :=
  some fun k => if h : k.val < 6 then dx ctx ⟨k.val, h⟩ else 0

/-- `GroundDynamics::dual_eom`, ground_dynamics.rs:58-102. -/
def dualEom {F Fr : Type} [Zero F] [One F] (a : Asset F Fr) : (Fin 6 → F) × Matrix (Fin 6) (Fin 6) F :=
  (dx a, Matrix.of fun i j => if i.val + 3 = j.val then 1 else 0)

/-- One step of the propagator on an asset: the attempt `derive` (`Verif.Rk.rkStep`, with the state itself as
context) and the new state, propagators/instance.rs:343-352. The step is in nanoseconds. -/
def step {Fr : Type} (tab : Rk.Tab) (fixed : Bool) (a : Asset ℚ Fr) (dt : Int) : Rk.Res (Asset ℚ Fr) :=
  (Rk.rkStep tab (eom a) fixed a.toVector ((dt : ℚ) / 1000000000)).bind fun r => .ok (a.set (a.epoch + dt) r.1)

/-- A propagation with the given steps. -/
def propagate {Fr : Type} (tab : Rk.Tab) (fixed : Bool) : Asset ℚ Fr → List Int → Rk.Res (Asset ℚ Fr)
  | a, [] => .ok a
  | a, dt :: l => (step tab fixed a dt).bind fun b => propagate tab fixed b l

/-! ### Geodetic coordinates -/

/-- What ANISE provides. `shape` has the mean equatorial radius and the polar radius, `orbit` is
`Orbit::try_latlongalt` (position and velocity in the frame), `geodetic` is `Orbit::latlongalt`. -/
structure Geo (Fr : Type) where
  shape : Fr → Option (ℝ × ℝ)
  orbit : ℝ → ℝ → ℝ → Int → Fr → Option (V3 × V3)
  geodetic : V3 × V3 → Int → Fr → Option (ℝ × ℝ × ℝ)

/-- `f64::to_radians`. -/
noncomputable def rad (d : ℝ) : ℝ := d * (Real.pi / 180)

/-- `f64::to_degrees`. -/
noncomputable def deg (r : ℝ) : ℝ := r * (180 / Real.pi)

/-- `State::orbit`, od/groundpnt/mod.rs:305-314: no orbit panics. -/
def Asset.orbit {Fr : Type} (g : Geo Fr) (a : Asset ℝ Fr) : Out (V3 × V3) :=
  (g.orbit a.lat a.lon a.height a.epoch a.frame).elim .panic .ok

/-- The radius of curvature `n` of od/groundpnt/mod.rs:491 and 530. -/
noncomputable def curvN (a b lat : ℝ) : ℝ :=
  a / Real.sqrt (1 - (a ^ 2 - b ^ 2) / a ^ 2 * Real.sin (rad lat) ^ 2)

/-- The radius of curvature `m` of od/groundpnt/mod.rs:494 and 527. -/
noncomputable def curvM (a b lat : ℝ) : ℝ :=
  a * (1 - (a ^ 2 - b ^ 2) / a ^ 2) / (1 - (a ^ 2 - b ^ 2) / a ^ 2 * Real.sin (rad lat) ^ 2) ^ (1.5 : ℝ)

/-- `latlongalt_rate`, od/groundpnt/mod.rs:463-509. -/
noncomputable def latlongaltRate {Fr : Type} (g : Geo Fr) (o : V3 × V3) (t : Int) (fr : Fr) (v : V3) :
    Option (ℝ × ℝ × ℝ) :=
  (g.geodetic o t fr).bind fun q => (g.shape fr).map fun s =>
    (deg (-v 0 / (curvM s.1 s.2 q.1 + q.2.2)),
     deg (if |Real.cos (rad q.1)| > 1 / 10 ^ 10 then v 1 / ((curvN s.1 s.2 q.1 + q.2.2) * Real.cos (rad q.1)) else 0),
     v 2)

/-- `velocity_sez_from_latlongalt_rate`, od/groundpnt/mod.rs:512-547. -/
noncomputable def velocitySez {Fr : Type} (g : Geo Fr) (o : V3 × V3) (t : Int) (fr : Fr) (la lo al : ℝ) :
    Option V3 :=
  (g.geodetic o t fr).bind fun q => (g.shape fr).map fun s =>
    ![-rad la * (curvM s.1 s.2 q.1 + q.2.2),
      rad lo * (curvN s.1 s.2 q.1 + q.2.2) * Real.cos (rad q.1),
      al]

/-- `with_velocity_sez_m_s`, od/groundpnt/mod.rs:78-94. -/
noncomputable def Asset.withVelocity {Fr : Type} (g : Geo Fr) (a : Asset ℝ Fr) (v : V3) : Out (Asset ℝ Fr) :=
  (a.orbit g).bind fun o => (latlongaltRate g o a.epoch a.frame ((1 / 1000 : ℝ) • v)).elim .err fun r =>
    .ok ⟨a.lat, a.lon, a.height, r.1, r.2.1, r.2.2, a.epoch, a.frame, a.stm⟩

/-- `velocity_sez_m_s`, od/groundpnt/mod.rs:107-124. -/
noncomputable def Asset.velocity {Fr : Type} (g : Geo Fr) (a : Asset ℝ Fr) : Option V3 :=
  (g.orbit a.lat a.lon a.height a.epoch a.frame).bind fun o =>
    (velocitySez g o a.epoch a.frame a.latRate a.lonRate a.heightRate).map fun v => (1000 : ℝ) • v

/-- `sin` of a hyperdual number (od/groundpnt/mod.rs:161, 163). -/
noncomputable def dsin {n : ℕ} (a : Dual n) : Dual n := ⟨Real.sin a.re, fun j => Real.cos a.re * a.eps j⟩

/-- `cos` of a hyperdual number (od/groundpnt/mod.rs:162, 164). -/
noncomputable def dcos {n : ℕ} (a : Dual n) : Dual n := ⟨Real.cos a.re, fun j => -Real.sin a.re * a.eps j⟩

/-- Product of a hyperdual number and a number (od/groundpnt/mod.rs:154-158). -/
noncomputable def dscale {n : ℕ} (a : Dual n) (c : ℝ) : Dual n := ⟨a.re * c, fun j => a.eps j * c⟩

/-- Opposite of a hyperdual number (od/groundpnt/mod.rs:180-184). -/
noncomputable def dneg {n : ℕ} (a : Dual n) : Dual n := ⟨-a.re, fun j => -a.eps j⟩

/-- The cartesian state of `geodetic_to_cartesian_jacobian`, od/groundpnt/mod.rs:131-193, for the radii `a` and `b`. -/
noncomputable def cartesian (a b : ℝ) (x : Fin 6 → ℝ) : Fin 6 → Dual 6 :=
  let e2 := (a * a - b * b) / (a * a)
  let lat := dscale (Dual.vars x 0) (Real.pi / 180)
  let lon := dscale (Dual.vars x 1) (Real.pi / 180)
  let alt := Dual.vars x 2
  let latRate := dscale (Dual.vars x 3) (Real.pi / 180)
  let lonRate := dscale (Dual.vars x 4) (Real.pi / 180)
  let altRate := Dual.vars x 5
  let w := Dual.ofReal 1 - Dual.ofReal e2 * dsin lat * dsin lat
  let n := Dual.ofReal a / w.sqrt
  let term1 := n * Dual.ofReal (1 - e2) / w
  ![(n + alt) * dcos lat * dcos lon,
    (n + alt) * dcos lat * dsin lon,
    (n * Dual.ofReal (1 - e2) + alt) * dsin lat,
    dneg (term1 + alt) * dsin lat * dcos lon * latRate + dneg (n + alt) * dcos lat * dsin lon * lonRate +
      dcos lat * dcos lon * altRate,
    dneg (term1 + alt) * dsin lat * dsin lon * latRate + (n + alt) * dcos lat * dcos lon * lonRate +
      dcos lat * dsin lon * altRate,
    (term1 * dcos lat + alt * dcos lat) * latRate + Dual.ofReal 0 * lonRate + dsin lat * altRate]

/-- The derivatives, od/groundpnt/mod.rs:196-205. -/
noncomputable def jac (a b : ℝ) (x : Fin 6 → ℝ) : Matrix (Fin 6) (Fin 6) ℝ :=
  Matrix.of fun i j => (cartesian a b x i).eps j

/-- `geodetic_to_cartesian_jacobian`, od/groundpnt/mod.rs:126-206. -/
noncomputable def Asset.jacobian {Fr : Type} (g : Geo Fr) (a : Asset ℝ Fr) : Option (Matrix (Fin 6) (Fin 6) ℝ) :=
  (g.shape a.frame).map fun s => jac s.1 s.2 a.vars

/-- The haversine of od/groundpnt/mod.rs:221. -/
noncomputable def haversine (lat1 lon1 lat2 lon2 : ℝ) : ℝ :=
  Real.sin ((rad lat2 - rad lat1) / 2) ^ 2 +
    Real.cos (rad lat1) * Real.cos (rad lat2) * Real.sin ((rad lon2 - rad lon1) / 2) ^ 2

/-- `great_circle_distance_km`, od/groundpnt/mod.rs:212-229. -/
noncomputable def Asset.greatCircle {Fr : Type} (g : Geo Fr) (p q : Asset ℝ Fr) : Option ℝ :=
  (g.shape p.frame).map fun s =>
    s.1 * (2 * atan2 (Real.sqrt (haversine p.lat p.lon q.lat q.lon))
      (Real.sqrt (1 - haversine p.lat p.lon q.lat q.lon)))

/-! ### Measurements -/

/-- `InterlinkTxSpacecraft` as the tracking device of an asset: `st` has its types, integration time and
noises (as in `Verif.Device.Link`), `at'` is `self.traj.at` and `aer` is
`azimuth_elevation_range_sez_from_location` for the location of the asset, which has neither rates nor
terrain mask (`to_location`, od/groundpnt/mod.rs:96-104). -/
structure Tx (Fr : Type) where
  st : Station
  at' : Int → Option (Craft ℝ Fr)
  aer : Craft ℝ Fr → ℝ → ℝ → ℝ → Fr → Option Aer

/-- The name given to the measurements, od/groundpnt/trk_device.rs:101 and 157. -/
def label : String := "GroundAsset"

/-- The value of a type, od/groundpnt/trk_device.rs:160-167: an unsupported type panics. -/
noncomputable def txValue (a : Aer) (k : MsrType) (n : ℝ) : Out ℝ :=
  match k with
  | .range => .ok (a.range + n)
  | .doppler => .ok (a.rate + n)
  | _ => .panic

/-- `measure_instantaneous`, od/groundpnt/trk_device.rs:133-172. -/
noncomputable def Tx.instant {S Fr : Type} (g : Rng S) (durOf : ℝ → Int) (tx : Tx Fr) (rx : Asset ℝ Fr)
    (rng : Option S) : Out (Option Msr × Station × Option S) :=
  (tx.at' rx.epoch).elim .err fun veh => (tx.aer veh rx.lat rx.lon rx.height rx.frame).elim .err fun a =>
    if a.mask < 0 then .ok (none, tx.st, rng)
    else (tx.st.noisesAt g rx.epoch rng).bind fun q =>
      (fill (txValue a) tx.st.types q.1.2 []).bind fun d =>
        .ok (some ⟨label, rx.epoch + durOf q.1.1, d, false⟩, q.2.1, q.2.2)

/-- The mean of both instants, od/groundpnt/trk_device.rs:105-111: a type missing from one of them panics. -/
noncomputable def meanValue (d0 d1 : List (MsrType × ℝ)) (k : MsrType) (n : ℝ) : Out ℝ :=
  (find k d0).elim .panic fun v0 => (find k d1).elim .panic fun v1 =>
    .ok ((v1 + v0) * 0.5 + n / Real.sqrt 2)

/-- `measure`, od/groundpnt/trk_device.rs:58-130. `traj` is `Traj::at` on the trajectory of the asset; both instants are
computed without noise. -/
noncomputable def Tx.measure {S Fr : Type} (g : Rng S) (durOf : ℝ → Int) (tx : Tx Fr)
    (traj : Int → Option (Asset ℝ Fr)) (t : Int) (rng : Option S) : Out (Option Msr × Station × Option S) :=
  match tx.st.integ with
  | some integ =>
    (traj (t - integ)).elim (.ok (none, tx.st, rng)) fun rx0 => (traj t).elim (.ok (none, tx.st, rng)) fun rx1 =>
      (tx.instant g durOf rx0 none).bind fun m0 => (tx.instant g durOf rx1 none).bind fun m1 =>
        m0.1.elim (.ok (none, tx.st, rng)) fun m0 => m1.1.elim (.ok (none, tx.st, rng)) fun m1 =>
          (tx.st.noisesAt g (t - integ / 2) rng).bind fun q =>
            (fill (meanValue m0.data m1.data) tx.st.types q.1.2 []).bind fun d =>
              .ok (some ⟨label, t + durOf q.1.1, d, false⟩, q.2.1, q.2.2)
  | none => (traj t).elim .err fun rx => tx.instant g durOf rx rng

/-! ### Sensitivity -/

/-- The row of a range, od/groundpnt/sensitivity.rs:146-154. -/
noncomputable def rangeRow6 (dr : V3) (rho : ℝ) (J : Matrix (Fin 6) (Fin 6) ℝ) : Fin 6 → ℝ :=
  Matrix.vecMul ![dr 0 / rho, dr 1 / rho, dr 2 / rho, 0, 0, 0] J

/-- The row of a Doppler, od/groundpnt/sensitivity.rs:126-137. -/
noncomputable def dopplerRow6 (dr dv : V3) (rho rate : ℝ) (J : Matrix (Fin 6) (Fin 6) ℝ) : Fin 6 → ℝ :=
  Matrix.vecMul ![dv 0 / rho - rate * dr 0 / rho ^ 2, dv 1 / rho - rate * dr 1 / rho ^ 2,
    dv 2 / rho - rate * dr 2 / rho ^ 2, dr 0 / rho, dr 1 / rho, dr 2 / rho] J

/-- The range used for the row of a Doppler, od/groundpnt/sensitivity.rs:114-124: that of the measurement, or the computed
one. -/
def Tx.rangeFor {Fr : Type} (tx : Tx Fr) (data : List (MsrType × ℝ)) (rx : Asset ℝ Fr) (veh : Craft ℝ Fr) : Out ℝ :=
  match find .range data with
  | some r => .ok r
  | none => (tx.aer veh rx.lat rx.lon rx.height rx.frame).elim .err fun a => .ok a.range

/-- `ScalarSensitivity::new`, od/groundpnt/sensitivity.rs:75-165. The state of the transmitter is used as it is in its
trajectory. -/
noncomputable def Tx.row {Fr : Type} (g : Geo Fr) (tx : Tx Fr) (data : List (MsrType × ℝ)) (rx : Asset ℝ Fr)
    (k : MsrType) : Out (Fin 6 → ℝ) :=
  (rx.orbit g).bind fun o => (tx.at' rx.epoch).elim .err fun veh => (rx.jacobian g).elim .err fun J =>
    match k with
    | .doppler =>
      (tx.rangeFor data rx veh).bind fun rho => (find .doppler data).elim .panic fun rate =>
        .ok (dopplerRow6 (o.1 - veh.pos) (o.2 - veh.vel) rho rate J)
    | .range => (find .range data).elim .panic fun rho => .ok (rangeRow6 (o.1 - veh.pos) rho J)
    | _ => .err

/-- The loop of `h_tilde`, od/groundpnt/sensitivity.rs:52-66. -/
def hLoop6 {m : Nat} (row : MsrType → Out (Fin 6 → ℝ)) (data : List (MsrType × ℝ)) :
    Nat → List MsrType → Matrix (Fin m) (Fin 6) ℝ → Out (Matrix (Fin m) (Fin 6) ℝ)
  | _, [], mat => .ok mat
  | i, k :: ks, mat =>
    if (find k data).isSome then
      (row k).bind fun r =>
        if h : i < m then hLoop6 row data (i + 1) ks (mat.updateRow ⟨i, h⟩ r) else .panic
    else hLoop6 row data (i + 1) ks mat

/-- `h_tilde`, od/groundpnt/sensitivity.rs:40-67: the matrix starts from the identity. -/
def hTilde6 (m : Nat) (row : MsrType → Out (Fin 6 → ℝ)) (data : List (MsrType × ℝ)) (types : List MsrType) :
    Out (Matrix (Fin m) (Fin 6) ℝ) :=
  hLoop6 row data 0 types (Matrix.of fun i j => if i.val = j.val then 1 else 0)

end Verif.Ground
