import Mathlib.LinearAlgebra.Matrix.PosDef
import Mathlib.Analysis.SpecialFunctions.Exp
import Mathlib.Analysis.SpecialFunctions.Sqrt
/-!
Model of the Kalman filter: nyx-core/src/od/kalman/filtering.rs, od/kalman/initializers.rs and the
process noise od/snc.rs.

Floating point numbers are real numbers, epochs and durations are integers (nanoseconds).
The following are parameters of the model:
* `chol`, the Cholesky decomposition of nalgebra, specified by `CholSpec`;
* `dcm`, the rotation of anise from a local frame to the inertial frame at an orbit.
The numeric inverse `try_inverse` is the exact inverse of an invertible matrix.
-/
namespace Verif.Kalman

open Matrix

/-- Outcome of a call: a value, an error (`ODError`), or a Rust panic. -/
inductive Res (α : Type) where
  | ok (a : α)
  | err
  | panic

/-- The operator `?` of Rust. -/
def Res.bind {α β : Type} (r : Res α) (f : α → Res β) : Res β :=
  match r with
  | .ok a => f a
  | .err => .err
  | .panic => .panic

/-- Nanoseconds to seconds, `Duration::to_seconds` (hifitime). -/
noncomputable def toSec (d : Int) : ℝ := (d : ℝ) / 1000000000

/-! ### Process noise -/

/-- `ProcessNoise<A>`; `F` is the type of local frames. od/snc.rs:38-56. -/
structure Noise (F : Type) (a : Nat) where
  startTime : Option Int
  localFrame : Option F
  disableTime : Int
  initEpoch : Option Int
  diag : Fin a → ℝ
  decay : Option (Fin a → ℝ)
  prevEpoch : Option Int

/-- The validity tests of `to_matrix`: start time in the past, previous use recent enough.
od/snc.rs:168-186. -/
def Noise.applies {F : Type} {a : Nat} (q : Noise F a) (epoch : Int) : Bool :=
  (match q.startTime with
    | some s => !decide (s > epoch)
    | none => true) &&
  (match q.prevEpoch with
    | some p => !decide (epoch - p > q.disableTime)
    | none => true)

/-- `to_matrix`, of which only the diagonal is kept (the matrix is diagonal by construction). The
`unwrap` of an unset initial epoch panics. od/snc.rs:168-208. -/
noncomputable def Noise.toDiag {F : Type} {a : Nat} (q : Noise F a) (epoch : Int) :
    Res (Option (Fin a → ℝ)) :=
  if q.applies epoch then
    match q.decay with
    | none => .ok (some q.diag)
    | some d =>
      match q.initEpoch with
      | none => .panic
      | some e0 => .ok (some fun i => q.diag i * Real.exp (-d i * toSec (epoch - e0)))
  else .ok none

/-- Entry `j` of a vector, zero when out of range. -/
def at_ {a : Nat} (d : Fin a → ℝ) (j : Nat) : ℝ := if h : j < a then d ⟨j, h⟩ else 0

/-- The rotation of the noise into the state frame, of which the code only keeps the diagonal; any
size but 3 and 6 is an error. Simplification: for size 6 the code multiplies by the six by six
`state_dcm` of anise; `stateDcm_diag` below shows that the diagonal is the one written here.
od/snc.rs:231-255. -/
noncomputable def rotDiag {a : Nat} (R : Matrix (Fin 3) (Fin 3) ℝ) (d : Fin a → ℝ) :
    Res (Fin a → ℝ) :=
  if a = 3 ∨ a = 6 then
    .ok fun i => ∑ k : Fin 3,
      R ⟨i.val % 3, Nat.mod_lt _ (by omega)⟩ k * at_ d (3 * (i.val / 3) + k.val) *
        R ⟨i.val % 3, Nat.mod_lt _ (by omega)⟩ k
  else .err

/-- The positions written in the Gamma matrix with the written value: `(row, column, squared?)`,
where `squared?` distinguishes `dt^2/2` from `dt`. od/snc.rs:264-286. -/
def gammaWrites (a : Nat) : List (Nat × Nat × Bool) :=
  (List.range (a / 3)).flatMap fun blk => (List.range 3).flatMap fun i =>
    [(i + a * blk, i + 3 * blk, true), (i + 3 + a * blk, i + 3 * blk, false)]

/-- One write in the Gamma matrix. od/snc.rs:283-284. -/
noncomputable def gammaWrite {s a : Nat} (dt : ℝ) (M : Matrix (Fin s) (Fin a) ℝ)
    (w : Nat × Nat × Bool) : Matrix (Fin s) (Fin a) ℝ :=
  Matrix.of fun r c => if r.val = w.1 ∧ c.val = w.2.1 then
    (if w.2.2 then dt ^ 2 / 2 else dt) else M r c

/-- The Gamma matrix: writes in order, a later write replaces an earlier one; an access out of bounds
panics. od/snc.rs:262-286. -/
noncomputable def gamma (s a : Nat) (dt : ℝ) : Res (Matrix (Fin s) (Fin a) ℝ) :=
  if (gammaWrites a).all fun w => decide (w.1 < s) && decide (w.2.1 < a) then
    .ok ((gammaWrites a).foldl (gammaWrite dt) 0)
  else .panic

variable {F Ω : Type}

/-- `propagate`: the contribution of one process noise. The epoch is that of the nominal orbit.
od/snc.rs:210-292. -/
noncomputable def Noise.propagate {a : Nat} (s : Nat) (dcm : F → Ω → Option (Matrix (Fin 3) (Fin 3) ℝ))
    (q : Noise F a) (orbit : Ω) (epoch : Int) (deltaT : Int) :
    Res (Option (Matrix (Fin s) (Fin s) ℝ)) :=
  (q.toDiag epoch).bind fun o =>
    match o with
    | none => .ok none
    | some d =>
      (match q.localFrame with
        | none => Res.ok d
        | some f =>
          match dcm f orbit with
          | none => .err
          | some R => rotDiag R d).bind fun d' =>
      if deltaT > q.disableTime then .ok none
      else (gamma s a (toSec deltaT)).bind fun G =>
        .ok (some (G * Matrix.diagonal d' * Gᵀ))

/-! ### Filter -/

/-- The nominal state handed to the filter: orbit, epoch and state transition matrix (`stm()` is an
error when it is not set). -/
structure Nominal (Ω : Type) (s : Nat) where
  orbit : Ω
  epoch : Int
  stm : Option (Matrix (Fin s) (Fin s) ℝ)

/-- `KfEstimate`. od/estimate/kfestimate.rs. -/
structure Est (Ω : Type) (s : Nat) where
  nominal : Nominal Ω s
  dev : Fin s → ℝ
  covar : Matrix (Fin s) (Fin s) ℝ
  covarBar : Matrix (Fin s) (Fin s) ℝ
  stm : Matrix (Fin s) (Fin s) ℝ
  predicted : Bool

/-- `KalmanVariant`. od/kalman/mod.rs:62-69. -/
inductive Variant where
  | referenceUpdate
  | deviationTracking
  deriving DecidableEq

/-- `KalmanFilter`. od/kalman/mod.rs:37-58. -/
structure KF (F Ω : Type) (s a : Nat) where
  prev : Est Ω s
  noises : List (Noise F a)
  variant : Variant
  prevUsedSnc : Nat

/-- `Residual`, without the tracker name and the measurement types, which the filter leaves empty.
`postfit` of a rejected residual is NaN, here `none`. od/estimate/residual.rs. -/
structure Resid (m : Nat) where
  epoch : Int
  prefit : Fin m → ℝ
  postfit : Option (Fin m → ℝ)
  whitened : Fin m → ℝ
  ratio : ℝ
  noise : Fin m → ℝ
  rejected : Bool
  realObs : Fin m → ℝ
  computedObs : Fin m → ℝ

variable {s a : Nat}

/-- The loop over the process noises, from the last to the first, on the list of indexed noises in
that order: the first contribution found is used. Returns the index used and the contribution.
od/kalman/filtering.rs:64-80 and 135-150. -/
noncomputable def sncLoop (dcm : F → Ω → Option (Matrix (Fin 3) (Fin 3) ℝ)) (x : Nominal Ω s)
    (deltaT : Int) : List (Noise F a × Nat) → Res (Option (Nat × Matrix (Fin s) (Fin s) ℝ))
  | [] => .ok none
  | (q, i) :: rest =>
    (q.propagate s dcm x.orbit x.epoch deltaT).bind fun o =>
      match o with
      | some C => .ok (some (i, C))
      | none => sncLoop dcm x deltaT rest

/-- Predicted covariance and index of the noise used: `stm * P * stm^T` plus the contribution.
od/kalman/filtering.rs:61-80 and 129-150. -/
noncomputable def KF.predict (dcm : F → Ω → Option (Matrix (Fin 3) (Fin 3) ℝ)) (kf : KF F Ω s a)
    (x : Nominal Ω s) (stm : Matrix (Fin s) (Fin s) ℝ) :
    Res (Matrix (Fin s) (Fin s) ℝ × Nat) :=
  (sncLoop dcm x (x.epoch - kf.prev.nominal.epoch) kf.noises.zipIdx.reverse).bind fun o =>
    match o with
    | some (i, C) => .ok (stm * kf.prev.covar * stmᵀ + C, i)
    | none => .ok (stm * kf.prev.covar * stmᵀ, kf.prevUsedSnc)

/-- The end of both updates: store the estimate and set the previous epoch of all noises.
od/kalman/filtering.rs:94-99 and 309-313. -/
def KF.store (kf : KF F Ω s a) (used : Nat) (e : Est Ω s) : KF F Ω s a :=
  { kf with
    prev := e
    prevUsedSnc := used
    noises := kf.noises.map fun q => { q with prevEpoch := some e.nominal.epoch } }

/-- `time_update`. od/kalman/filtering.rs:59-101. -/
noncomputable def KF.timeUpdate (dcm : F → Ω → Option (Matrix (Fin 3) (Fin 3) ℝ)) (kf : KF F Ω s a)
    (x : Nominal Ω s) : Res (KF F Ω s a × Est Ω s) :=
  match x.stm with
  | none => .err
  | some stm =>
    (kf.predict dcm x stm).bind fun pu =>
      let e : Est Ω s :=
        { nominal := x
          dev := if kf.variant = .deviationTracking then stm *ᵥ kf.prev.dev else 0
          covar := pu.1, covarBar := pu.1, stm := stm, predicted := true }
      .ok (kf.store pu.2 e, e)

/-- Inputs of a measurement update: real and computed observation, noise, sensitivity. -/
structure MsrIn (s m : Nat) where
  real : Fin m → ℝ
  computed : Fin m → ℝ
  R : Matrix (Fin m) (Fin m) ℝ
  H : Matrix (Fin m) (Fin s) ℝ

/-- Type of the Cholesky decomposition, for every size; `none` when it fails. -/
abbrev Chol : Type :=
  (m : Nat) → Matrix (Fin m) (Fin m) ℝ → Option (Matrix (Fin m) (Fin m) ℝ)

/-- What is assumed of nalgebra's `cholesky` on symmetric matrices: it succeeds exactly on positive
definite ones, and returns a lower triangular factor. -/
def CholSpec (chol : Chol) : Prop :=
  (∀ (m : Nat) (S : Matrix (Fin m) (Fin m) ℝ), S.PosDef → ∃ L, chol m S = some L) ∧
  ∀ (m : Nat) (S L : Matrix (Fin m) (Fin m) ℝ), S.IsSymm → chol m S = some L →
    S.PosDef ∧ L * Lᵀ = S ∧ (∀ i j, i < j → L i j = 0)

section
variable (chol : Chol)
variable (dcm : F → Ω → Option (Matrix (Fin 3) (Fin 3) ℝ))

/-- The gain: `(S_k \ (P H^T)^T)^T` by Cholesky, otherwise `P H^T S_k^-1` by the LU inverse,
otherwise the error `SingularKalmanGain`. od/kalman/filtering.rs:219-246. -/
noncomputable def gainOf {m : Nat} (P : Matrix (Fin s) (Fin s) ℝ) (H : Matrix (Fin m) (Fin s) ℝ)
    (S : Matrix (Fin m) (Fin m) ℝ) : Res (Matrix (Fin s) (Fin m) ℝ) :=
  match chol m S with
  | some L => .ok ((L * Lᵀ)⁻¹ * (P * Hᵀ)ᵀ)ᵀ
  | none => open Classical in if S.det ≠ 0 then .ok (P * Hᵀ * S⁻¹) else .err

/-- The factor used to whiten the residual: that of `S_k`, otherwise that of the measurement noise.
od/kalman/filtering.rs:164-171. -/
def factorOf {m : Nat} (S R : Matrix (Fin m) (Fin m) ℝ) : Option (Matrix (Fin m) (Fin m) ℝ) :=
  match chol m S with
  | some L => some L
  | none => chol m R

/-- The ratio of the whitened residual: root of its mean square.
od/kalman/filtering.rs:177-180. -/
noncomputable def ratioOf {m : Nat} (w : Fin m → ℝ) : ℝ := Real.sqrt ((w ⬝ᵥ w) / (m : ℝ))

/-- The one sigma envelope of the innovation. od/kalman/filtering.rs:183. -/
noncomputable def trendOf {m : Nat} (S : Matrix (Fin m) (Fin m) ℝ) : Fin m → ℝ :=
  fun i => Real.sqrt (S i i)

/-- Joseph form of the updated covariance followed by the symmetrisation.
od/kalman/filtering.rs:290-294. -/
noncomputable def joseph {m : Nat} (P : Matrix (Fin s) (Fin s) ℝ) (H : Matrix (Fin m) (Fin s) ℝ)
    (R : Matrix (Fin m) (Fin m) ℝ) (K : Matrix (Fin s) (Fin m) ℝ) : Matrix (Fin s) (Fin s) ℝ :=
  let C := (1 - K * H) * P * (1 - K * H)ᵀ + K * R * Kᵀ
  (1 / 2 : ℝ) • (C + Cᵀ)

/-- State deviation and postfit residual of an accepted measurement with gain `K`, depending on the
variant. od/kalman/filtering.rs:251-285. -/
noncomputable def devPost {m : Nat} (v : Variant) (stm : Matrix (Fin s) (Fin s) ℝ) (d : Fin s → ℝ)
    (K : Matrix (Fin s) (Fin m) ℝ) (H : Matrix (Fin m) (Fin s) ℝ) (y : Fin m → ℝ) :
    (Fin s → ℝ) × (Fin m → ℝ) :=
  match v with
  | .referenceUpdate => (K *ᵥ y, y - H *ᵥ (K *ᵥ y))
  | .deviationTracking => (stm *ᵥ d + K *ᵥ (y - H *ᵥ (stm *ᵥ d)), y - H *ᵥ (stm *ᵥ d))

/-- The rejection test, `ratio > num_sigmas` if a threshold is given.
od/kalman/filtering.rs:186-187. -/
noncomputable def rejects (threshold : Option ℝ) (ratio : ℝ) : Bool :=
  match threshold with
  | some t => open Classical in decide (ratio > t)
  | none => false

/-- `measurement_update`. The threshold is `resid_rejection`. The lower triangular solve is the
product by the inverse of the factor. od/kalman/filtering.rs:104-316. -/
noncomputable def KF.measurementUpdate {m : Nat} (kf : KF F Ω s a) (x : Nominal Ω s) (z : MsrIn s m)
    (threshold : Option ℝ) :
    Res (KF F Ω s a × Est Ω s × Resid m × Option (Matrix (Fin s) (Fin m) ℝ)) :=
  match x.stm with
  | none => .err
  | some stm =>
    (kf.predict dcm x stm).bind fun pu =>
      let P := pu.1
      let S := z.H * (P * z.Hᵀ) + z.R
      let prefit := z.real - z.computed
      match factorOf chol S z.R with
      | none => .err
      | some L =>
        let w := L⁻¹ *ᵥ prefit
        let ratio := ratioOf w
        let trend : Fin m → ℝ := trendOf S
        let kf1 : KF F Ω s a := { kf with prevUsedSnc := pu.2 }
        if rejects threshold ratio then
          (kf1.timeUpdate dcm x).bind fun r =>
            .ok (r.1, r.2,
              { epoch := x.epoch, prefit := prefit, postfit := none, whitened := w, ratio := ratio,
                noise := trend, rejected := true, realObs := z.real, computedObs := z.computed },
              none)
        else
          (gainOf chol P z.H S).bind fun K =>
            let dp := devPost kf.variant stm kf.prev.dev K z.H prefit
            let e : Est Ω s :=
              { nominal := x, dev := dp.1, covar := joseph P z.H z.R K, covarBar := P,
                stm := stm, predicted := false }
            .ok (kf.store pu.2 e, e,
              { epoch := x.epoch, prefit := prefit, postfit := some dp.2, whitened := w,
                ratio := ratio, noise := trend, rejected := false, realObs := z.real,
                computedObs := z.computed },
              some K)

/-- One operation on a filter. -/
inductive Op (Ω : Type) (s : Nat) where
  | time (x : Nominal Ω s)
  | msr (x : Nominal Ω s) (m : Nat) (z : MsrIn s m) (threshold : Option ℝ)

/-- A history of operations; it stops at the first error. -/
noncomputable def KF.run (kf : KF F Ω s a) : List (Op Ω s) → Res (KF F Ω s a)
  | [] => .ok kf
  | .time x :: rest => (kf.timeUpdate dcm x).bind fun r => KF.run r.1 rest
  | .msr x _ z t :: rest => (kf.measurementUpdate chol dcm x z t).bind fun r => KF.run r.1 rest

end

/-- `and_with_process_noise`; `from_process_noise` and `with_process_noise` are the same on an empty
list of noises. od/kalman/initializers.rs:70-97. -/
def KF.andWithNoise (kf : KF F Ω s a) (q : Noise F a) : KF F Ω s a :=
  { kf with noises := kf.noises ++ [{ q with initEpoch := some kf.prev.nominal.epoch }] }

/-- `set_process_noise`: does not set the initial epoch. od/kalman/filtering.rs:323-325. -/
def KF.setNoise (kf : KF F Ω s a) (q : Noise F a) : KF F Ω s a :=
  { kf with noises := [q] }

/-- `initialize_process_noises`. od/kalman/initializers.rs:99-103. -/
def KF.initNoises (kf : KF F Ω s a) : KF F Ω s a :=
  { kf with noises := kf.noises.map fun q => { q with initEpoch := some kf.prev.nominal.epoch } }

end Verif.Kalman
