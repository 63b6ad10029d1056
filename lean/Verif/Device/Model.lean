import Verif.Mc.Model
import Verif.Noise.Model
import Mathlib.LinearAlgebra.Matrix.RowCol
/-!
Model of the tracking devices and of their sensitivities:
`od/msr/types.rs`, `od/ground_station/{mod,trk_device}.rs`, `od/position/{mod,trk_device,sensitivity}.rs`,
`od/interlink/{trk_device,sensitivity}.rs`, `od/msr/sensitivity.rs`, `od/simulator/trackdata.rs`.

* `f64` is modelled by the real numbers, epochs and durations by integers (nanoseconds).
* `IndexSet` and `IndexMap` are lists without repeated keys, in insertion order.
* The ephemerides (`Almanac`) and trajectories are parameters: the azimuth, elevation and range of a
  spacecraft seen from the station, the line of sight, the frame transformations. `none` is an error.
* Random values come from the generator of `Verif.Noise`.
-/
namespace Verif.Device
open Verif.Noise Verif.Spacecraft
open Verif.Mc (Out)

/-- `MeasurementType`, msr/types.rs:36-57. -/
inductive MsrType where
  | range | doppler | azimuth | elevation | receiveFreq | transmitFreq | transmitFreqRate | x | y | z
  deriving DecidableEq, Repr

/-- `AzElRange` (ANISE): what a station sees; `mask` is `elevation_above_mask_deg()`. -/
structure Aer where
  range : ℝ
  rate : ℝ
  az : ℝ
  el : ℝ
  mask : ℝ
  obstructed : Bool

/-- `IndexMap::get`. -/
def find {α : Type} (k : MsrType) : List (MsrType × α) → Option α
  | [] => none
  | p :: l => if p.1 = k then some p.2 else find k l

/-- `IndexMap::insert`: replaces the value in place, or appends. -/
def upsert {α : Type} (k : MsrType) (v : α) : List (MsrType × α) → List (MsrType × α)
  | [] => [(k, v)]
  | p :: l => if p.1 = k then (k, v) :: l else p :: upsert k v l

/-- `IndexSet::insert`. -/
def insertSet (k : MsrType) (l : List MsrType) : List MsrType := if k ∈ l then l else l ++ [k]

/-- `swap_remove` of `IndexMap` and `IndexSet`: the last entry takes the place of the removed one. -/
def swapRemove {α : Type} (p : α → Bool) (l : List α) : List α :=
  (l.findIdx? p).elim l fun i => l.getLast?.elim l fun a => (l.set i a).dropLast

/-! ### Measurement values -/

/-- `MeasurementType::compute_one_way`, msr/types.rs:102-117. -/
def oneWay (k : MsrType) (a : Aer) (noise : ℝ) : Option ℝ :=
  match k with
  | .range => some (a.range + noise)
  | .doppler => some (a.rate + noise)
  | .azimuth => some (a.az + noise)
  | .elevation => some (a.el + noise)
  | _ => none

/-- `MeasurementType::compute_two_way`, msr/types.rs:121-153. -/
noncomputable def twoWay (k : MsrType) (a0 a1 : Aer) (noise : ℝ) : Option ℝ :=
  match k with
  | .range => some ((a1.range + a0.range) * 0.5 + noise / Real.sqrt 2)
  | .doppler => some ((a1.rate + a0.rate) * 0.5 + noise / Real.sqrt 2)
  | .azimuth => some ((a1.az + a0.az) * 0.5 + noise / Real.sqrt 2)
  | .elevation => some ((a1.el + a0.el) * 0.5 + noise / Real.sqrt 2)
  | _ => none

/-- `Measurement`, msr/measurement.rs:38-47. -/
structure Msr where
  tracker : String
  epoch : Int
  data : List (MsrType × ℝ)
  rejected : Bool

/-- The loop which fills a measurement, e.g. od/ground_station/trk_device.rs:193-196: the value of each type from its noise,
pushed in the map. -/
def fill (f : MsrType → ℝ → Out ℝ) : List MsrType → List ℝ → List (MsrType × ℝ) →
    Out (List (MsrType × ℝ))
  | [], _, d => .ok d
  | _ :: _, [], _ => .panic
  | k :: ks, n :: ns, d => (f k n).bind fun v => fill f ks ns (upsert k v d)

/-! ### Ground station -/

/-- `GroundStation`, ground_station/mod.rs:52-63. The location and the light time flag only enter the
ephemerides: they are part of the parameter `aer` of the functions below. -/
structure Station where
  name : String
  types : List MsrType
  integ : Option Int
  stamp : Option Stoch
  noises : Option (List (MsrType × Stoch))

/-- `GroundStation::from_point`, ground_station/mod.rs:111-134. -/
def Station.fromPoint (name : String) : Station := ⟨name, [], none, none, none⟩

/-- `GroundStation::with_msr_type`, ground_station/mod.rs:137-150. -/
def Station.withType (st : Station) (k : MsrType) (n : Stoch) : Station :=
  ⟨st.name, insertSet k st.types, st.integ, st.stamp, some (upsert k n (st.noises.getD []))⟩

/-- `GroundStation::without_msr_type`, ground_station/mod.rs:153-161. -/
def Station.withoutType (st : Station) (k : MsrType) : Station :=
  ⟨st.name, swapRemove (· = k) st.types, st.integ, st.stamp,
   st.noises.map (swapRemove fun p => p.1 = k)⟩

/-- `GroundStation::with_integration_time`, ground_station/mod.rs:163-167. -/
def Station.withInteg (st : Station) (t : Option Int) : Station :=
  ⟨st.name, st.types, t, st.stamp, st.noises⟩

/-- `GroundStation::with_msr_bias_constant`, ground_station/mod.rs:170-195. `this_noise.bias.unwrap()`
copies the process (`GaussMarkov` is `Copy`), so the assignment of the constant on line 192 is lost; a
missing noise panics (line 186). -/
noncomputable def Station.withBias (st : Station) (k : MsrType) (_c : ℝ) : Out Station :=
  (find k (st.noises.getD [])).elim .panic fun n =>
    .ok ⟨st.name, st.types, st.integ, st.stamp,
      some (upsert k ⟨n.white, some (n.bias.getD Gm.zero)⟩ (st.noises.getD []))⟩

/-- Sampling of the noises of the enabled types, ground_station/mod.rs:216-223. -/
noncomputable def sampleAll {S : Type} (g : Rng S) (t : Int) : List MsrType → List (MsrType × Stoch) → S →
    Option (List ℝ × List (MsrType × Stoch) × S)
  | [], m, s => some ([], m, s)
  | k :: ks, m, s => (find k m).bind fun n =>
    (sampleAll g t ks (upsert k (n.sample g t s).2.1 m) (n.sample g t s).2.2).map fun q =>
      ((n.sample g t s).1 :: q.1, q.2)

/-- The timestamp noise, ground_station/mod.rs:210-212: `timestamp_noise_s` is `Copy`, the copy is sampled,
so the state of the process is not kept. -/
noncomputable def stampNoise {S : Type} (g : Rng S) (t : Int) (n : Option Stoch) (s : S) : ℝ × S :=
  n.elim (0, s) fun n => ((n.sample g t s).1, (n.sample g t s).2.2)

/-- `GroundStation::noises`, ground_station/mod.rs:198-227: the timestamp noise (entry 0 of the vector), the
noises of the enabled types (the other entries), the station and the generator after it. -/
noncomputable def Station.noisesAt {S : Type} (g : Rng S) (st : Station) (t : Int) (rng : Option S) :
    Out ((ℝ × List ℝ) × Station × Option S) :=
  rng.elim (.ok ((0, List.replicate st.types.length 0), st, none)) fun s =>
    st.noises.elim .err fun m =>
      (sampleAll g t st.types m (stampNoise g t st.stamp s).2).elim .err fun q =>
        .ok (((stampNoise g t st.stamp s).1, q.1),
          ⟨st.name, st.types, st.integ, st.stamp, some q.2.1⟩, some q.2.2)

/-- The value of a type for a one way measurement, an unsupported type being an error. -/
def oneWayOut (a : Aer) (k : MsrType) (n : ℝ) : Out ℝ := (oneWay k a n).elim .err .ok

/-- The value of a type for a two way measurement. -/
noncomputable def twoWayOut (a0 a1 : Aer) (k : MsrType) (n : ℝ) : Out ℝ := (twoWay k a0 a1 n).elim .err .ok

/-- `measure_instantaneous` of the ground station, ground_station/trk_device.rs:158-208. `aer` is
`azimuth_elevation_range_sez_from_location` for this station, `durOf` is `f64::seconds()` (hifitime). -/
noncomputable def Station.instant {S Fr : Type} (g : Rng S) (durOf : ℝ → Int) (aer : Craft ℝ Fr → Option Aer)
    (st : Station) (rx : Craft ℝ Fr) (rng : Option S) : Out (Option Msr × Station × Option S) :=
  (aer rx).elim .err fun a =>
    if a.mask ≥ 0 ∧ a.obstructed = false then
      (st.noisesAt g rx.epoch rng).bind fun q =>
        (fill (oneWayOut a) st.types q.1.2 []).bind fun d =>
          .ok (some ⟨st.name, rx.epoch + durOf q.1.1, d, false⟩, q.2.1, q.2.2)
    else .ok (none, st, rng)

/-- The two way branch of `measure`, ground_station/trk_device.rs:84-138, from the states at both ends. The
midpoint `integration_time * 0.5` is rounded down to a nanosecond. -/
noncomputable def Station.integrated {S Fr : Type} (g : Rng S) (durOf : ℝ → Int)
    (aer : Craft ℝ Fr → Option Aer) (st : Station) (t integ : Int) (rx0 rx1 : Craft ℝ Fr) (rng : Option S) :
    Out (Option Msr × Station × Option S) :=
  (aer rx0).elim .err fun a0 => (aer rx1).elim .err fun a1 =>
    if a0.mask < 0 ∨ a1.mask < 0 then .ok (none, st, rng)
    else if a0.obstructed = true ∨ a1.obstructed = true then .ok (none, st, rng)
    else (st.noisesAt g (t - integ / 2) rng).bind fun q =>
      (fill (twoWayOut a0 a1) st.types q.1.2 []).bind fun d =>
        .ok (some ⟨st.name, t + durOf q.1.1, d, false⟩, q.2.1, q.2.2)

/-- `measure` of the ground station, ground_station/trk_device.rs:42-148. `traj` is `Traj::at`. -/
noncomputable def Station.measure {S Fr : Type} (g : Rng S) (durOf : ℝ → Int) (aer : Craft ℝ Fr → Option Aer)
    (traj : Int → Option (Craft ℝ Fr)) (st : Station) (t : Int) (rng : Option S) :
    Out (Option Msr × Station × Option S) :=
  match st.integ with
  | some integ =>
    (traj (t - integ)).elim (.ok (none, st, rng)) fun rx0 => (traj t).elim (.ok (none, st, rng)) fun rx1 =>
      st.integrated g durOf aer t integ rx0 rx1 rng
  | none => (traj t).elim .err fun rx => st.instant g durOf aer rx rng

/-- `measurement_covar`, ground_station/trk_device.rs:217-226: no noise at all panics. -/
def Station.covar (st : Station) (k : MsrType) : Out ℝ :=
  st.noises.elim .panic fun m => (find k m).elim .err fun n => .ok n.covariance

/-- `measurement_bias`, ground_station/trk_device.rs:228-242. -/
def Station.biasOf (st : Station) (k : MsrType) : Out ℝ :=
  st.noises.elim .panic fun m => (find k m).elim .err fun n =>
    .ok (n.bias.elim 0 fun b => b.const.getD 0)

/-- The residual of the Kalman process, process/mod.rs:327-333 and kalman/filtering.rs: the observation minus
the computed value, from which the bias is subtracted first. -/
def kalmanResidual (real computed bias : ℝ) : ℝ := real - (computed - bias)

/-- The residual of the batch process, blse/mod.rs:259-275: the bias is not used. -/
def batchResidual (real computed : ℝ) : ℝ := real - computed

/-! ### Position device -/

/-- `PositionDevice`, position/mod.rs:14-18. -/
structure PosDevice where
  name : String
  types : List MsrType
  noises : Option (List (MsrType × Stoch))

/-- `PositionDevice::with_noise`, position/mod.rs:29-39. -/
def PosDevice.withNoise (p : PosDevice) (k : MsrType) (n : Stoch) : PosDevice :=
  ⟨p.name, insertSet k p.types, some (upsert k n (p.noises.getD []))⟩

/-- `measurement_bias`, position/trk_device.rs:101-117. -/
def PosDevice.biasOf (p : PosDevice) (k : MsrType) : Out ℝ :=
  p.noises.elim (.ok 0) fun m => (find k m).elim .err fun n =>
    .ok (n.bias.elim 0 fun b => b.const.getD 0)

/-- `measurement_covar`, position/trk_device.rs:88-99. -/
def PosDevice.covar (p : PosDevice) (k : MsrType) : Out ℝ :=
  p.noises.elim (.ok 0) fun m => (find k m).elim .err fun n => .ok n.covariance

/-- The coordinate `radius_km[ii]`, position/trk_device.rs:79: an index above 2 panics. -/
def coordAt {Fr : Type} (rx : Craft ℝ Fr) (i : Nat) : Out ℝ := if h : i < 3 then .ok (rx.pos ⟨i, h⟩) else .panic

/-- The loop over the types, position/trk_device.rs:76-83: `ii` is the place of the type in the list of the
device, and not the coordinate the type names. -/
def PosDevice.fill {Fr : Type} (p : PosDevice) (rx : Craft ℝ Fr) : Nat → List MsrType → List ℝ →
    List (MsrType × ℝ) → Out (List (MsrType × ℝ))
  | _, [], _, d => .ok d
  | i, k :: ks, ns, d => (coordAt rx i).bind fun v => (p.biasOf k).bind fun b =>
      p.fill rx (i + 1) ks ns.tail (upsert k (v + ns.headD 0 + b) d)

/-- `measure_instantaneous`, position/trk_device.rs:44-86. -/
noncomputable def PosDevice.instant {S Fr : Type} (g : Rng S) (p : PosDevice) (rx : Craft ℝ Fr)
    (rng : Option S) : Out (Option Msr × PosDevice × Option S) :=
  rng.elim
    ((p.fill rx 0 p.types [] []).bind fun d => .ok (some ⟨p.name, rx.epoch, d, false⟩, p, none))
    fun s => p.noises.elim .err fun m => (sampleAll g rx.epoch p.types m s).elim .err fun q =>
      (PosDevice.fill ⟨p.name, p.types, some q.2.1⟩ rx 0 p.types q.1 []).bind fun d =>
        .ok (some ⟨p.name, rx.epoch, d, false⟩, ⟨p.name, p.types, some q.2.1⟩, some q.2.2)

/-! ### Link between spacecraft -/

/-- Scalar product. -/
def dot3 (a b : Fin 3 → ℝ) : ℝ := a 0 * b 0 + a 1 * b 1 + a 2 * b 2

/-- Norm. -/
noncomputable def norm3 (a : Fin 3 → ℝ) : ℝ := Real.sqrt (dot3 a a)

/-- `InterlinkTxSpacecraft` with its ephemerides, interlink/trk_device.rs:42-53: `at'` is `self.traj.at`,
`los` is `line_of_sight_obstructed`, `toTx` is `transform_to` into the frame of the transmitter. The noises
are those of a station (same code, interlink/trk_device.rs:57-90 and ground_station/mod.rs:198-227). -/
structure Link (Fr : Type) where
  st : Station
  at' : Int → Option (Craft ℝ Fr)
  los : Craft ℝ Fr → Craft ℝ Fr → Option Bool
  toTx : Craft ℝ Fr → Fr → Option (Craft ℝ Fr)

/-- The value of a type for a link, interlink/trk_device.rs:206-225: `obs` is the transmitter and `rx` the
receiver in the frame of the transmitter. An unsupported type panics. -/
noncomputable def linkValue {Fr : Type} (obs rx : Craft ℝ Fr) (k : MsrType) (n : ℝ) : Out ℝ :=
  match k with
  | .range => .ok (norm3 (rx.pos - obs.pos) + n)
  | .doppler => .ok (dot3 (rx.pos - obs.pos) rx.vel / norm3 (rx.pos - obs.pos) + n)
  | _ => .panic

/-- `measure_instantaneous` of the link, interlink/trk_device.rs:180-231. -/
noncomputable def Link.instant {S Fr : Type} (g : Rng S) (durOf : ℝ → Int) (l : Link Fr) (rx : Craft ℝ Fr)
    (rng : Option S) : Out (Option Msr × Station × Option S) :=
  (l.at' rx.epoch).elim .err fun obs => (l.los obs rx).elim .err fun hidden =>
    if hidden then .ok (none, l.st, rng)
    else (l.toTx rx obs.frame).elim .err fun r => (l.st.noisesAt g obs.epoch rng).bind fun q =>
      (fill (linkValue obs r) l.st.types q.1.2 []).bind fun d =>
        .ok (some ⟨l.st.name, rx.epoch + durOf q.1.1, d, false⟩, q.2.1, q.2.2)

/-! ### Sensitivities -/

/-- A row of the sensitivity of a range, msr/sensitivity.rs:171-187, interlink/sensitivity.rs:139-159. -/
noncomputable def rangeRow (dr : Fin 3 → ℝ) (rho : ℝ) : Fin 9 → ℝ :=
  ![dr 0 / rho, dr 1 / rho, dr 2 / rho, 0, 0, 0, 0, 0, 0]

/-- A row of the sensitivity of a Doppler, msr/sensitivity.rs:153-163, interlink/sensitivity.rs:121-131. -/
noncomputable def dopplerRow (dr dv : Fin 3 → ℝ) (rho rate : ℝ) : Fin 9 → ℝ :=
  ![dv 0 / rho - rate * dr 0 / rho ^ 2, dv 1 / rho - rate * dr 1 / rho ^ 2,
    dv 2 / rho - rate * dr 2 / rho ^ 2, dr 0 / rho, dr 1 / rho, dr 2 / rho, 0, 0, 0]

/-- A row of the sensitivity of an azimuth, msr/sensitivity.rs:189-199. -/
noncomputable def azimuthRow (dr : Fin 3 → ℝ) : Fin 9 → ℝ :=
  ![-dr 1 / (dr 0 ^ 2 + dr 1 ^ 2), dr 0 / (dr 0 ^ 2 + dr 1 ^ 2), 0, 0, 0, 0, 0, 0, 0]

/-- A row of the sensitivity of an elevation, msr/sensitivity.rs:208-219. -/
noncomputable def elevationRow (dr : Fin 3 → ℝ) : Fin 9 → ℝ :=
  ![-(dr 0 * dr 2) / (norm3 dr ^ 2 * Real.sqrt (norm3 dr ^ 2 - dr 2 ^ 2)),
    -(dr 1 * dr 2) / (norm3 dr ^ 2 * Real.sqrt (norm3 dr ^ 2 - dr 2 ^ 2)),
    Real.sqrt (dr 0 ^ 2 + dr 1 ^ 2) / norm3 dr ^ 2, 0, 0, 0, 0, 0, 0]

/-- `ScalarSensitivity::new` for a ground station, msr/sensitivity.rs:121-238. `tx` is the location of the
station in the frame of the receiver, `range` the range computed by `azimuth_elevation_of`. -/
noncomputable def stationRow {Fr : Type} (tx : Option ((Fin 3 → ℝ) × (Fin 3 → ℝ))) (range : Option ℝ)
    (data : List (MsrType × ℝ)) (rx : Craft ℝ Fr) (k : MsrType) : Out (Fin 9 → ℝ) :=
  tx.elim .err fun p =>
    match k with
    | .doppler => range.elim .err fun rho => (find .doppler data).elim .panic fun rate =>
        .ok (dopplerRow (rx.pos - p.1) (rx.vel - p.2) rho rate)
    | .range => (find .range data).elim .panic fun rho => .ok (rangeRow (rx.pos - p.1) rho)
    | .azimuth => .ok (azimuthRow (rx.pos - p.1))
    | .elevation => .ok (elevationRow (rx.pos - p.1))
    | _ => .err

/-- `ScalarSensitivity::new` for a link, interlink/sensitivity.rs:83-171. -/
noncomputable def linkRow {Fr : Type} (tx : Option ((Fin 3 → ℝ) × (Fin 3 → ℝ)))
    (data : List (MsrType × ℝ)) (rx : Craft ℝ Fr) (k : MsrType) : Out (Fin 9 → ℝ) :=
  tx.elim .err fun p =>
    match k with
    | .doppler => (find .range data).elim .err fun rho => (find .doppler data).elim .err fun rate =>
        .ok (dopplerRow (rx.pos - p.1) (rx.vel - p.2) rho rate)
    | .range => (find .range data).elim .err fun rho => .ok (rangeRow (rx.pos - p.1) rho)
    | _ => .err

/-- `ScalarSensitivity::new` for the position device, position/sensitivity.rs:54-80. -/
def posRow (k : MsrType) : Out (Fin 9 → ℝ) :=
  match k with
  | .x => .ok (Pi.single 0 1)
  | .y => .ok (Pi.single 1 1)
  | .z => .ok (Pi.single 2 1)
  | _ => .err

/-- The loop of `h_tilde`, msr/sensitivity.rs:100-113 (the same in interlink/sensitivity.rs:62-75 and
position/sensitivity.rs:33-46): a type which is not in the measurement is skipped, `set_row` outside of the
matrix panics. -/
def hLoop {m : Nat} (row : MsrType → Out (Fin 9 → ℝ)) (data : List (MsrType × ℝ)) :
    Nat → List MsrType → Matrix (Fin m) (Fin 9) ℝ → Out (Matrix (Fin m) (Fin 9) ℝ)
  | _, [], mat => .ok mat
  | i, k :: ks, mat =>
    if (find k data).isSome then
      (row k).bind fun r =>
        if h : i < m then hLoop row data (i + 1) ks (mat.updateRow ⟨i, h⟩ r) else .panic
    else hLoop row data (i + 1) ks mat

/-- `OMatrix::identity` for a rectangular matrix. -/
def rectId (m : Nat) : Matrix (Fin m) (Fin 9) ℝ := Matrix.of fun i j => if i.val = j.val then 1 else 0

/-- `h_tilde` of a ground station (msr/sensitivity.rs:88-115) and of a link (interlink/sensitivity.rs:50-77):
the matrix starts from the identity. -/
def hTilde (m : Nat) (row : MsrType → Out (Fin 9 → ℝ)) (data : List (MsrType × ℝ)) (types : List MsrType) :
    Out (Matrix (Fin m) (Fin 9) ℝ) := hLoop row data 0 types (rectId m)

/-- `h_tilde` of the position device, position/sensitivity.rs:21-48: the matrix starts from zero. -/
def hTildePos (m : Nat) (data : List (MsrType × ℝ)) (types : List MsrType) :
    Out (Matrix (Fin m) (Fin 9) ℝ) := hLoop posRow data 0 types 0

end Verif.Device
