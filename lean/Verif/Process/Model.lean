import Verif.Kalman.Theorems
/-!
Model of the sequential orbit determination process: nyx-core/src/od/process/mod.rs, on top of the model
of the Kalman filter (Verif.Kalman.Model).

Parameters: the propagator (`adv`, one call of `for_duration_with_traj`), the tracking devices
(measurement types, sensitivity, covariance, bias and computed measurement), `State::add`.
Devices are stateless here: the code passes no random generator, so that `measure` computes the noiseless
observation. Logging and the counters used only for logging are left out.
-/
namespace Verif.Process
open Verif.Kalman Matrix

/-- A measurement. `none` stands for a value that is not finite (NaN or infinite).
od/msr/measurement.rs:30-43. -/
structure Meas (T K : Type) where
  tracker : T
  epoch : Int
  data : List (K × Option ℝ)
  rejected : Bool

/-- `IndexMap::get`. -/
def look {K V : Type} [DecidableEq K] : List (K × V) → K → Option V
  | [], _ => none
  | (k', v) :: l, k => if k' = k then some v else look l k

/-- `Measurement::availability(..).iter().any(..)`. od/msr/measurement.rs:101-108. -/
def Meas.anyAvailable {T K : Type} [DecidableEq K] (z : Meas T K) (types : List K) : Bool :=
  types.any fun t => (look z.data t).isSome

/-- `Measurement::observation` followed by the test that all values are finite: rows without data are
zero; `none` if a value is not finite. od/msr/measurement.rs:83-98, od/process/mod.rs:298-310. -/
def observation {K : Type} [DecidableEq K] (m : Nat) (data : List (K × Option ℝ)) (types : List K) :
    Option (Fin m → ℝ) :=
  if types.all fun t => match look data t with
    | some none => false
    | _ => true
  then some fun i => match types[i.val]? with
    | none => 0
    | some t => match look data t with
      | some (some v) => v
      | _ => 0
  else none

/-- `Measurement::observation` of a computed measurement, whose values are supposed finite (the code
does not test them). od/msr/measurement.rs:83-98. -/
def obsOf {K : Type} [DecidableEq K] (m : Nat) (data : List (K × ℝ)) (types : List K) : Fin m → ℝ :=
  fun i => match types[i.val]? with
    | none => 0
    | some t => (look data t).getD 0

/-- The ambiguity added to a real observation: `k * modulus` with `k` the Euclidean quotient of the
computed observation (`f64::div_euclid`: the remainder is in `[0, |modulus|)`).
od/process/mod.rs:335-348. -/
noncomputable def divEuclid (x m : ℝ) : ℝ := if 0 < m then (⌊x / m⌋ : ℝ) else (⌈x / m⌉ : ℝ)

/-- The real observation after the resolution of the ambiguities.
od/process/mod.rs:335-348. -/
noncomputable def resolve {K : Type} [DecidableEq K] {m : Nat} (moduli : Option (List (K × ℝ)))
    (types : List K) (computed real : Fin m → ℝ) : Fin m → ℝ :=
  match moduli with
  | none => real
  | some ms => fun i => real i + (match types[i.val]? with
    | none => 0
    | some t => match look ms t with
      | none => 0
      | some md => divEuclid (computed i) md * md)

/-- A tracking device with the functions used by the process; `none` of `measure` when the device does
not see the spacecraft. od/msr/../trk_device.rs: `TrackingDevice`. -/
structure Dev (T K Ω : Type) (s m : Nat) where
  types : List K
  hTilde : Meas T K → List K → Nominal Ω s → Res (Matrix (Fin m) (Fin s) ℝ)
  covar : List K → Int → Res (Matrix (Fin m) (Fin m) ℝ)
  bias : List K → Int → Res (Fin m → ℝ)
  measure : Int → List (Nominal Ω s) → Res (Option (List (K × ℝ)))

/-- The propagator instance: its state and its current step size. -/
structure PInst (Ω : Type) (s : Nat) where
  state : Nominal Ω s
  step : Int

/-- `KalmanODProcess` with the external functions. `adv p d` is `for_duration_with_traj(d)`: the
instance afterwards and the states of the trajectory. od/process/mod.rs:50-80. -/
structure Cfg (T K F Ω : Type) (s a m : Nat) where
  maxStep : Int
  precision : Int
  sigmaReject : Option ℝ
  variant : Variant
  noises : List (Noise F a)
  fixed : Bool
  propStep : Int
  devices : T → Option (Dev T K Ω s m)
  adv : PInst Ω s → Int → Res (PInst Ω s × List (Nominal Ω s))
  plus : Nominal Ω s → (Fin s → ℝ) → Nominal Ω s
  chol : Chol
  dcm : F → Ω → Option (Matrix (Fin 3) (Fin 3) ℝ)

/-- The tracking data arc as the process reads it. -/
structure PArc (T K : Type) where
  measurements : List (Meas T K)
  moduli : Option (List (K × ℝ))
  forceReject : Bool

/-- One entry of the solution: what `push_time_update` and `push_measurement_update` push.
od/process/solution/mod.rs. -/
inductive Entry (T K Ω : Type) (s m : Nat) where
  | time (e : Est Ω s)
  | msr (e : Est Ω s) (r : Resid m) (gain : Option (Matrix (Fin s) (Fin m) ℝ)) (tracker : T)
      (types : List K)

variable {T K F Ω : Type} [DecidableEq K] {s a m : Nat}

/-- The mutable variables of `process_arc`: instance, `epoch`, filter, trajectory, solution. -/
structure PSt (T K F Ω : Type) (s a m : Nat) where
  inst : PInst Ω s
  epoch : Int
  kf : KF F Ω s a
  traj : List (Nominal Ω s)
  sol : List (Entry T K Ω s m)

/-- `State::reset_stm`. cosmic/spacecraft.rs:441-443. -/
def resetStm (p : PInst Ω s) : PInst Ω s := { p with state := { p.state with stm := some 1 } }

/-- `state.set_epoch`. -/
def setEpoch (p : PInst Ω s) (e : Int) : PInst Ω s := { p with state := { p.state with epoch := e } }

/-- The manual `retain`: the index found from the end is cut off together with what follows.
od/process/mod.rs:222-230. -/
def truncIdx (epoch : Int) : List (Nominal Ω s) → Nat
  | l => (l.reverse.takeWhile fun x => !decide (x.epoch ≥ epoch)).length

/-- `traj.states.truncate(index)`. od/process/mod.rs:222-230: with `k` states at the end all before
`epoch`, the loop stops at index `len - 1 - k`, or at zero. -/
def truncate (epoch : Int) (l : List (Nominal Ω s)) : List (Nominal Ω s) :=
  l.take (l.length - 1 - truncIdx epoch l)

/-- The types processed in window number `w`. od/process/mod.rs:277-283. -/
def window (dim : Nat) (types : List K) (w : Nat) : List K := (types.drop (w * dim)).take dim

/-- The windows of a device: `0..=len/DIM`, up to the first empty one. A zero dimension divides by
zero (panics); not modelled, the dimension is at least one. od/process/mod.rs:270-290. -/
def windows (dim : Nat) (types : List K) : List (List K) :=
  ((List.range (types.length / dim + 1)).map (window dim types)).takeWhile fun w => !w.isEmpty

/-- The threshold used. od/process/mod.rs:175-179. -/
noncomputable def threshold (cfg : Cfg T K F Ω s a m) (arc : PArc T K) : Option ℝ :=
  if arc.forceReject then some 0 else cfg.sigmaReject

/-- The state of the propagator after a processed measurement: for the reference update variant and an
accepted measurement the estimated state replaces it, also at the end of the trajectory; then the state
transition matrix is reset. od/process/mod.rs:369-377. -/
def applyUpdate (cfg : Cfg T K F Ω s a m) (p : PInst Ω s) (traj : List (Nominal Ω s))
    (e : Est Ω s) (rejected : Bool) : PInst Ω s × List (Nominal Ω s) :=
  if cfg.variant = .referenceUpdate ∧ rejected = false then
    let st := cfg.plus e.nominal e.dev
    (resetStm { p with state := st }, traj.dropLast ++ [st])
  else (resetStm p, traj)

/-- One window of one measurement. od/process/mod.rs:273-395. -/
noncomputable def oneWindow (cfg : Cfg T K F Ω s a m) (arc : PArc T K) (z : Meas T K)
    (dev : Dev T K Ω s m) (types : List K) (st : PSt T K F Ω s a m) : Res (PSt T K F Ω s a m) :=
  if z.anyAvailable types then
    match observation m z.data types with
    | none => .err
    | some real =>
      (dev.hTilde z types st.inst.state).bind fun H =>
      (dev.covar types st.epoch).bind fun R =>
      (dev.measure st.epoch st.traj).bind fun o =>
        match o with
        | none => .ok st
        | some comp =>
          (dev.bias types st.epoch).bind fun b =>
          (st.kf.measurementUpdate cfg.chol cfg.dcm st.inst.state
            ⟨resolve arc.moduli types (obsOf m comp types - b) real, obsOf m comp types - b, R, H⟩
            (threshold cfg arc)).bind fun r =>
              let u := applyUpdate cfg st.inst st.traj r.2.1 r.2.2.1.rejected
              .ok { inst := u.1, epoch := st.epoch, kf := r.1, traj := u.2,
                    sol := st.sol ++ [.msr r.2.1 r.2.2.1 r.2.2.2 z.tracker types] }
  else .ok st

/-- The loop over the windows. -/
noncomputable def allWindows (cfg : Cfg T K F Ω s a m) (arc : PArc T K) (z : Meas T K)
    (dev : Dev T K Ω s m) : List (List K) → PSt T K F Ω s a m → Res (PSt T K F Ω s a m)
  | [], st => .ok st
  | w :: ws, st => (oneWindow cfg arc z dev w st).bind fun st' => allWindows cfg arc z dev ws st'

/-- A time update pushed in the solution, followed by the reset of the state transition matrix.
od/process/mod.rs:257-262 and 428-430. `nominal` is the state given to the filter. -/
noncomputable def timeUp (cfg : Cfg T K F Ω s a m) (nominal : Nominal Ω s)
    (st : PSt T K F Ω s a m) : Res (PSt T K F Ω s a m) :=
  (st.kf.timeUpdate cfg.dcm nominal).bind fun r =>
    .ok { st with inst := resetStm st.inst, kf := r.1, sol := st.sol ++ [.time r.2] }

/-- What is done once the propagator is at the epoch of the measurement.
od/process/mod.rs:251-408. -/
noncomputable def atMeasurement (cfg : Cfg T K F Ω s a m) (arc : PArc T K) (z : Meas T K)
    (st : PSt T K F Ω s a m) : Res (PSt T K F Ω s a m) :=
  let nominal := st.inst.state
  let st' := { st with inst := setEpoch st.inst z.epoch }
  if z.rejected then timeUp cfg nominal st'
  else match cfg.devices z.tracker with
    | none => .ok st'
    | some dev => allWindows cfg arc z dev (windows m dev.types) st'

/-- The length of the next step. od/process/mod.rs:216-219. -/
def nextStep (cfg : Cfg T K F Ω s a m) (z : Meas T K) (st : PSt T K F Ω s a m) : Int :=
  min (min (z.epoch - st.epoch) st.inst.step) cfg.maxStep

/-- The inner loop for one measurement, with fuel; `none` when it runs out.
od/process/mod.rs:214-432. -/
noncomputable def advanceTo (cfg : Cfg T K F Ω s a m) (arc : PArc T K) (z : Meas T K) :
    Nat → PSt T K F Ω s a m → Option (Res (PSt T K F Ω s a m))
  | 0, _ => none
  | n + 1, st =>
    match cfg.adv st.inst (nextStep cfg z st) with
    | .err => some .err
    | .panic => some .panic
    | .ok (p, states) =>
      let st1 : PSt T K F Ω s a m :=
        { st with inst := p, epoch := p.state.epoch, traj := truncate st.epoch st.traj ++ states }
      if |p.state.epoch - z.epoch| < cfg.precision then some (atMeasurement cfg arc z st1)
      else
        match timeUp cfg p.state st1 with
        | .ok st2 => advanceTo cfg arc z n st2
        | .err => some .err
        | .panic => some .panic

/-- The loop over the measurements. -/
noncomputable def processAll (cfg : Cfg T K F Ω s a m) (arc : PArc T K) (fuel : Nat) :
    List (Meas T K) → PSt T K F Ω s a m → Option (Res (PSt T K F Ω s a m))
  | [], st => some (.ok st)
  | z :: zs, st =>
    match advanceTo cfg arc z fuel st with
    | none => none
    | some (.ok st') => processAll cfg arc fuel zs st'
    | some r => some r

/-- The state of the process when the loop starts. od/process/mod.rs:163-206. -/
def start (cfg : Cfg T K F Ω s a m) (e0 : Est Ω s) : PSt T K F Ω s a m :=
  { inst := ⟨{ e0.nominal with stm := some 1 }, if cfg.fixed then cfg.propStep else cfg.maxStep⟩
    epoch := e0.nominal.epoch
    kf := KF.initNoises ⟨e0, cfg.noises, cfg.variant, 0⟩
    traj := []
    sol := [] }

/-- `process_arc`. od/process/mod.rs:126-437. -/
noncomputable def processArc (cfg : Cfg T K F Ω s a m) (fuel : Nat) (e0 : Est Ω s)
    (arc : PArc T K) : Option (Res (List (Entry T K Ω s m))) :=
  if arc.measurements.length < 2 ∨ cfg.maxStep ≤ 0 then some .err
  else match processAll cfg arc fuel arc.measurements (start cfg e0) with
    | none => none
    | some (.ok st) => some (.ok st.sol)
    | some .err => some .err
    | some .panic => some .panic

/-- The loop of `predict_until`, with fuel. `adv` is `for_duration(max_step)`.
od/process/mod.rs:464-482. -/
noncomputable def predictLoop (cfg : Cfg T K F Ω s a m) (end_ : Int) :
    Nat → PInst Ω s → KF F Ω s a → List (Entry T K Ω s m) →
      Option (Res (List (Entry T K Ω s m)))
  | 0, _, _, _ => none
  | n + 1, p, kf, sol =>
    match cfg.adv p cfg.maxStep with
    | .err => some .err
    | .panic => some .panic
    | .ok (p', _) =>
      match kf.timeUpdate cfg.dcm p'.state with
      | .err => some .err
      | .panic => some .panic
      | .ok (kf', e) =>
        if p'.state.epoch ≥ end_ then some (.ok (sol ++ [.time e]))
        else predictLoop cfg end_ n (resetStm p') kf' (sol ++ [.time e])

/-- `predict_until`: the noises are not initialised. od/process/mod.rs:441-485. -/
noncomputable def predictUntil (cfg : Cfg T K F Ω s a m) (fuel : Nat) (e0 : Est Ω s) (end_ : Int) :
    Option (Res (List (Entry T K Ω s m))) :=
  predictLoop cfg end_ fuel ⟨{ e0.nominal with stm := some 1 }, cfg.propStep⟩
    ⟨e0, cfg.noises, cfg.variant, 0⟩ [.time e0]

/-- `predict_for`. od/process/mod.rs:488-495. -/
noncomputable def predictFor (cfg : Cfg T K F Ω s a m) (fuel : Nat) (e0 : Est Ω s) (d : Int) :
    Option (Res (List (Entry T K Ω s m))) :=
  predictUntil cfg fuel e0 (e0.nominal.epoch + d)

end Verif.Process
