import Verif.Spacecraft.Model
import Verif.MathU.Model
import Verif.Util.Sort
import Mathlib.Data.Matrix.Diagonal
/-!
Model of the Monte Carlo framework: nyx-core/src/mc/{montecarlo,multivariate,dispersion,generator,results,
helpers}.rs and the classification of parameters of nyx-core/src/md/param.rs.

Floating point numbers are reals. The random number generator is a state `R` with a function that draws
one value and gives the next state. The partial derivatives of the orbital elements, the singular value
decomposition and the eigenvalues (external libraries) are parameters.
-/
namespace Verif.Mc
open Matrix Verif.Spacecraft

variable {R D X E Fr : Type}

/-- The outcome of a function that may return an error or panic. -/
inductive Out (α : Type) where
  | ok (a : α) | err | panic
deriving DecidableEq

/-- The operator `?` and the normal sequence of statements. -/
def Out.bind {α β : Type} (x : Out α) (f : α → Out β) : Out β :=
  match x with
  | .ok a => f a
  | .err => .err
  | .panic => .panic

/-- An error returned with `?`. -/
def orErr {α : Type} : Option α → Out α
  | some a => .ok a
  | none => .err

/-- `unwrap`. -/
def unwrap {α : Type} : Option α → Out α
  | some a => .ok a
  | none => .panic

/-! ### Parameters -/

/-- `StateParameter`: the orbital elements `E` are those of ANISE, the parameters without a role in the Monte
Carlo code are numbered. md/param.rs:31-70. -/
inductive Par (E : Type) where
  | elem (e : E)
  | bdotR | bdotT | bltof
  | cr | cd | dryMass | propMass
  | other (n : Nat)
deriving DecidableEq

/-- `is_b_plane`. md/param.rs:92-94. -/
def Par.isBPlane : Par E → Bool
  | .bdotR | .bdotT | .bltof => true
  | _ => false

/-- `is_orbital`. md/param.rs:97-99. -/
def Par.isOrbital : Par E → Bool
  | .elem _ => true
  | _ => false

/-- `StateDispersion`. mc/dispersion.rs:28-34. -/
structure Disp (E : Type) where
  param : Par E
  mean : Option ℝ
  std : Option ℝ

/-- `DispersedState`. mc/generator.rs:57-66. -/
structure Dispersed (E Fr : Type) where
  state : Craft ℝ Fr
  actual : List (Par E × ℝ)

/-- The external functions.
`elemValue`, `elemPartial`: the value of an orbital element and its gradient with respect to the position
and velocity (`None` is an error); `otherValue`: the value of any other parameter; `bplaneOk`: whether the B
plane of the orbit exists; `svd`: the transposed `v_t` and the singular values (`svd_unordered(false, true)`);
`eigenvalues`: of nalgebra. -/
structure Ext (E Fr : Type) where
  elemValue : Craft ℝ Fr → E → Option ℝ
  elemPartial : Craft ℝ Fr → E → Option (Fin 6 → ℝ)
  otherValue : Craft ℝ Fr → Par E → Option ℝ
  bplaneOk : Craft ℝ Fr → Bool
  svd : Matrix (Fin 9) (Fin 9) ℝ → Option (Matrix (Fin 9) (Fin 9) ℝ × (Fin 9 → ℝ))
  eigenvalues : Matrix (Fin 9) (Fin 9) ℝ → Option (Fin 9 → ℝ)

/-- `Spacecraft::value` on these parameters. cosmic/spacecraft.rs:520-578. -/
def Ext.value (x : Ext E Fr) (s : Craft ℝ Fr) : Par E → Option ℝ
  | .elem e => x.elemValue s e
  | .cr => some s.cr
  | .cd => some s.cd
  | .dryMass => some s.dry
  | .propMass => some s.prop
  | p => x.otherValue s p

/-! ### The generator of spacecraft states -/

/-- `MvnSpacecraft`. mc/multivariate.rs:61-71. -/
structure Gen (E Fr : Type) where
  template : Craft ℝ Fr
  disps : List (Disp E)
  mean : Fin 9 → ℝ
  sqrtSV : Matrix (Fin 9) (Fin 9) ℝ

/-- Collects the partial derivatives of the orbital dispersions; the first failure is returned. The branches
for the B plane and for the other parameters cannot be reached since `is_orbital` holds only for elements.
mc/multivariate.rs:112-128. -/
def partialsOf (x : Ext E Fr) (t : Craft ℝ Fr) : List (Disp E) → Out (List (Fin 6 → ℝ))
  | [] => .ok []
  | d :: l =>
    match d.param with
    | .elem e => (orErr (x.elemPartial t e)).bind fun g => (partialsOf x t l).bind fun gs => .ok (g :: gs)
    | _ => partialsOf x t l

/-- The Jacobian, one row per orbital dispersion. mc/multivariate.rs:107, 130-143. -/
def jacobian (gs : List (Fin 6 → ℝ)) : Matrix (Fin gs.length) (Fin 6) ℝ := of fun i j => gs[i] j

/-- The diagonal covariance and the means of the orbital dispersions. The lists have the length of the list of
gradients (read with the default 0 otherwise). mc/multivariate.rs:108-109, 144-145. -/
noncomputable def variances (ds : List (Disp E)) (n : Nat) : Fin n → ℝ :=
  fun i => ((ds.map fun d => d.std.getD 0).getD i.val 0) ^ 2

noncomputable def meansOf (ds : List (Disp E)) (n : Nat) : Fin n → ℝ :=
  fun i => (ds.map fun d => d.mean.getD 0).getD i.val 0

/-- Writes the 6 × 6 block and the first six means. mc/multivariate.rs:156-161. -/
def writeOrbit (o : Matrix (Fin 6) (Fin 6) ℝ) : Matrix (Fin 9) (Fin 9) ℝ :=
  of fun i j => if h : i.val < 6 ∧ j.val < 6 then o ⟨i.val, h.1⟩ ⟨j.val, h.2⟩ else 0

def writeMean (m : Fin 6 → ℝ) : Fin 9 → ℝ := fun i => if h : i.val < 6 then m ⟨i.val, h⟩ else 0

/-- The orbital part: covariance and mean. mc/multivariate.rs:100-162. -/
noncomputable def orbitPart (x : Ext E Fr) (t : Craft ℝ Fr) (ds : List (Disp E)) :
    Out (Matrix (Fin 9) (Fin 9) ℝ × (Fin 9 → ℝ)) :=
  let os := ds.filter fun d => d.param.isOrbital
  if os.length > 0 then
    (partialsOf x t os).bind fun gs =>
      (orErr (MathU.pseudoInverse (jacobian gs))).bind fun ji =>
        .ok (writeOrbit (ji * diagonal (variances os gs.length) * jiᵀ),
          writeMean (ji *ᵥ meansOf os gs.length))
  else .ok (0, 0)

/-- Writes one entry of the diagonal. -/
def setDiag (c : Matrix (Fin 9) (Fin 9) ℝ) (k : Fin 9) (v : ℝ) : Matrix (Fin 9) (Fin 9) ℝ :=
  of fun i j => if i = k ∧ j = k then v else c i j

/-- The dispersions that are not orbital; writing the entry (9, 9) of a 9 × 9 matrix panics.
mc/multivariate.rs:164-183. -/
noncomputable def otherPart (c : Matrix (Fin 9) (Fin 9) ℝ) : List (Disp E) → Out (Matrix (Fin 9) (Fin 9) ℝ)
  | [] => .ok c
  | d :: l =>
    match d.param with
    | .elem _ => otherPart c l
    | .cr => otherPart (setDiag c 7 (d.mean.getD 0 ^ 2)) l
    | .cd => otherPart (setDiag c 8 (d.mean.getD 0 ^ 2)) l
    | .dryMass | .propMass => .panic
    | _ => .err

/-- `V √S`: each column of `V` is multiplied by the square root of its singular value.
mc/multivariate.rs:191-196, 242-247. -/
noncomputable def sqrtSV (v : Matrix (Fin 9) (Fin 9) ℝ) (s : Fin 9 → ℝ) : Matrix (Fin 9) (Fin 9) ℝ :=
  of fun i j => v i j * Real.sqrt (s j)

/-- `MvnSpacecraft::new`. mc/multivariate.rs:80-205. -/
noncomputable def mvnNew (x : Ext E Fr) (t : Craft ℝ Fr) (ds : List (Disp E)) : Out (Gen E Fr) :=
  if ds.any (fun d => d.param.isBPlane) && !x.bplaneOk t then .err
  else
    (orbitPart x t ds).bind fun cm =>
      (otherPart cm.1 ds).bind fun c =>
        (orErr (x.svd c)).bind fun vs =>
          .ok { template := t, disps := ds, mean := cm.2, sqrtSV := sqrtSV vs.1 vs.2 }

/-- `MvnSpacecraft::zero_mean`. mc/multivariate.rs:208-217. -/
noncomputable def mvnZeroMean (x : Ext E Fr) (t : Craft ℝ Fr) (ds : List (Disp E)) : Out (Gen E Fr) :=
  mvnNew x t (ds.map fun d => { d with mean := some 0 })

/-- The dispersions recorded by `from_spacecraft_cov`: `ax` gives the elements X, Y, Z, VX, VY, VZ.
mc/multivariate.rs:249-286. -/
def recorded (ax : Fin 6 → E) (c : Matrix (Fin 9) (Fin 9) ℝ) : List (Disp E) :=
  [⟨.elem (ax 0), none, some (c 0 0)⟩, ⟨.elem (ax 1), none, some (c 1 1)⟩,
    ⟨.elem (ax 2), none, some (c 2 2)⟩, ⟨.elem (ax 3), none, some (c 3 3)⟩,
    ⟨.elem (ax 4), none, some (c 4 4)⟩, ⟨.elem (ax 5), none, some (c 5 5)⟩,
    ⟨.cr, none, some (c 6 6)⟩, ⟨.cd, none, some (c 7 7)⟩, ⟨.propMass, none, some (c 8 8)⟩]

/-- `MvnSpacecraft::from_spacecraft_cov`. mc/multivariate.rs:220-295. -/
noncomputable def fromCov (x : Ext E Fr) (ax : Fin 6 → E) (t : Craft ℝ Fr) (c : Matrix (Fin 9) (Fin 9) ℝ)
    (mean : Fin 9 → ℝ) : Out (Gen E Fr) :=
  (orErr (x.eigenvalues c)).bind fun ev =>
    if (List.finRange 9).any (fun i => decide (ev i < 0)) then .err
    else
      (orErr (x.svd c)).bind fun vs =>
        .ok { template := t, disps := recorded ax c, mean := mean, sqrtSV := sqrtSV vs.1 vs.2 }

/-- Adds the nine values to the template. mc/multivariate.rs:303-318. -/
def disperse (t : Craft ℝ Fr) (d : Fin 9 → ℝ) : Craft ℝ Fr :=
  { t with
    pos := fun i => t.pos i + d ⟨i.val, by omega⟩
    vel := fun i => t.vel i + d ⟨3 + i.val, by omega⟩
    cr := t.cr + d 6
    cd := t.cd + d 7
    prop := t.prop + d 8 }

/-- The dispersions reported with a sample. mc/multivariate.rs:320-325. -/
noncomputable def reported (x : Ext E Fr) (t s : Craft ℝ Fr) : List (Disp E) → Out (List (Par E × ℝ))
  | [] => .ok []
  | d :: l =>
    (unwrap (x.value t d.param)).bind fun a =>
      (unwrap (x.value s d.param)).bind fun b =>
        (reported x t s l).bind fun r => .ok ((d.param, a - b) :: r)

/-- `Distribution::sample` of `MvnSpacecraft`, for the nine values drawn. mc/multivariate.rs:299-331. -/
noncomputable def Gen.sample (x : Ext E Fr) (g : Gen E Fr) (z : Fin 9 → ℝ) : Out (Dispersed E Fr) :=
  let s := disperse g.template (g.sqrtSV *ᵥ z + g.mean)
  (reported x g.template s g.disps).bind fun r => .ok ⟨s, r⟩

/-! ### Runs -/

/-- `Iterator::skip` on the samples: they are drawn and dropped. -/
def skipN (sample : R → D × R) : Nat → R → R
  | 0, r => r
  | k + 1, r => skipN sample k (sample r).2

/-- `Iterator::take` on the samples. -/
def takeN (sample : R → D × R) : Nat → R → List D
  | 0, _ => []
  | n + 1, r => (sample r).1 :: takeN sample n (sample r).2

/-- `generate_states` with a seed: `sample_iter(rng).skip(skip).take(num_runs).enumerate()`.
mc/montecarlo.rs:277-296. Without a seed the generator is initialized by the system (not modelled). -/
def generateStates (sample : R → D × R) (rng : R) (skip n : Nat) : List (Nat × D) :=
  (takeN sample n (skipN sample skip rng)).zipIdx.map fun p => (p.2, p.1)

/-- `Run`. mc/results.rs:48-59. -/
structure Run (D X : Type) where
  index : Nat
  disp : D
  result : X

/-- `resume_run_until_epoch` and `resume_run_until_nth_event`: each state is propagated (`prop`, which
includes the stopping condition), the runs are received in the order `sched` in which the threads
finish, then sorted by index. mc/montecarlo.rs:115-183, 208-273. -/
def resumeRun (sched : List (Run D X) → List (Run D X)) (sample : R → D × R) (prop : D → X) (rng : R)
    (skip n : Nat) : List (Run D X) :=
  Util.sortBy (fun r => (r.index : Int))
    (sched ((generateStates sample rng skip n).map fun p => ⟨p.1, p.2, prop p.2⟩))

/-- `run_until_epoch` and `run_until_nth_event`. mc/montecarlo.rs:93-110, 188-203. -/
def run (sched : List (Run D X) → List (Run D X)) (sample : R → D × R) (prop : D → X) (rng : R)
    (n : Nat) : List (Run D X) := resumeRun sched sample prop rng 0 n

/-! ### Reports -/

/-- `PropResult`, or `none` for a run that failed: the final state and the trajectory. mc/results.rs:74-81. -/
structure Success (S : Type) where
  last : S
  traj : List S

/-- One value of a report, or the default, or nothing. mc/results.rs:103-111. -/
def pushOr (dflt : Option ℝ) : Option ℝ → List ℝ
  | some v => [v]
  | none => dflt.toList

/-- `every_value_of` and `every_value_of_between`: `states` gives the states read on a trajectory
(`traj.every(step)`, `traj.every_between(step, start, end)`, modelled with the trajectories).
mc/results.rs:90-160. -/
def everyValueOf {S : Type} (value : S → Option ℝ) (states : List S → List S) (dflt : Option ℝ)
    (runs : List (Run D (Option (Success S)))) : List ℝ :=
  runs.flatMap fun r =>
    match r.result with
    | some s => (states s.traj).flatMap fun st => pushOr dflt (value st)
    | none => dflt.toList

/-- `first_values_of`. An empty trajectory panics. mc/results.rs:164-191. -/
def firstValuesOf {S : Type} (value : S → Option ℝ) (dflt : Option ℝ) :
    List (Run D (Option (Success S))) → Out (List ℝ)
  | [] => .ok []
  | r :: l =>
    match r.result with
    | some s => (unwrap s.traj.head?).bind fun st =>
        (firstValuesOf value dflt l).bind fun vs => .ok (pushOr dflt (value st) ++ vs)
    | none => (firstValuesOf value dflt l).bind fun vs => .ok (dflt.toList ++ vs)

/-- `last_values_of`. mc/results.rs:195-222. -/
def lastValuesOf {S : Type} (value : S → Option ℝ) (dflt : Option ℝ) :
    List (Run D (Option (Success S))) → Out (List ℝ)
  | [] => .ok []
  | r :: l =>
    match r.result with
    | some s => (unwrap s.traj.getLast?).bind fun st =>
        (lastValuesOf value dflt l).bind fun vs => .ok (pushOr dflt (value st) ++ vs)
    | none => (lastValuesOf value dflt l).bind fun vs => .ok (dflt.toList ++ vs)

/-- `dispersion_values_of`; `none` is an error. mc/results.rs:225-240. -/
def dispersionValuesOf [DecidableEq E] (p : Par E) :
    List (Run (Dispersed E Fr) X) → Option (List ℝ)
  | [] => some []
  | r :: l =>
    match r.disp.actual.find? (fun q => decide (q.1 = p)) with
    | some q => (dispersionValuesOf p l).map (q.2 :: ·)
    | none => none

/-- The options of an export that select the states. io/mod.rs (`ExportCfg`). -/
structure Cfg where
  start : Option Int
  stop : Option Int
  step : Option Int

/-- The states written by `to_parquet`, with the index of their run, before the columns are computed; `none`
is the error without a successful run. `between traj step start end` are the states of
`every_between`. The window kept in `acc` is that of the first successful run. mc/results.rs:266-311.
The trajectory of a success is not empty (`first()` panics otherwise; not modelled). -/
def exportRows {S : Type} (epoch : S → Int) (between : List S → Int → Int → Int → List S) (cfg : Cfg)
    (acc : Option (Int × Int)) : List (Run D (Option (Success S))) → Option (Int × Int) × List (Nat × S)
  | [] => (acc, [])
  | r :: l =>
    match r.result with
    | none => exportRows epoch between cfg acc l
    | some s =>
      let w := acc.getD ((s.traj.head?.elim 0 epoch), epoch s.last)
      let states :=
        if cfg.start.isSome || cfg.stop.isSome || cfg.step.isSome then
          between s.traj (cfg.step.getD 60000000000) (cfg.start.getD w.1) (cfg.stop.getD w.2)
        else s.traj
      let rest := exportRows epoch between cfg (some w) l
      (rest.1, states.map (fun st => (r.index, st)) ++ rest.2)

/-! ### Execution errors of maneuvers -/

/-- `unit_vector_from_seed`, for the two values drawn in [0, 1]. mc/helpers.rs:25-32. -/
noncomputable def unitFromSeed (u v : ℝ) : Fin 3 → ℝ :=
  let theta := 2 * Real.pi * u
  let phi := Real.arccos (2 * v - 1)
  ![Real.cos theta * Real.sin phi, Real.sin theta * Real.sin phi, Real.cos phi]

/-- `dv_pointing_error`: `draw mean sigma` is the normal value drawn; `none` is an error. A nil `cur_pointing`
gives an angle that is not a number (not modelled: here the angle is π/2). mc/helpers.rs:37-65. -/
noncomputable def pointingError (draw : ℝ → ℝ → ℝ) (cur dv : Fin 3 → ℝ) (err : ℝ) : Option (Fin 3 → ℝ) :=
  if ¬(0 ≤ err ∧ err < 1) then none
  else if MathU.nrm dv < MathU.eps then none
  else
    let hat := (1 / MathU.nrm dv) • dv
    let angle := Real.arccos ((cur ⬝ᵥ hat) / MathU.nrm cur)
    some (MathU.nrm dv • (Real.cos (draw angle (err / 3)) • hat))

/-- `dv_execution_error`: `draw2` is the second value drawn. A negative `mag_3s` panics and a nil vector after
the pointing error gives not a number (not modelled: here zero). mc/helpers.rs:68-80. -/
noncomputable def executionError (draw draw2 : ℝ → ℝ → ℝ) (cur dv : Fin 3 → ℝ) (point mag : ℝ) :
    Option (Fin 3 → ℝ) :=
  (pointingError draw cur dv point).map fun d =>
    draw2 (MathU.nrm d) (mag / 3) • ((1 / MathU.nrm d) • d)

end Verif.Mc
