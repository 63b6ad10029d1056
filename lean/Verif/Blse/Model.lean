import Verif.Process.Model
/-!
Model of the batch least squares estimator, od/blse/mod.rs and od/blse/solution.rs.

Numbers are reals; epochs and durations are integers of nanoseconds. The propagator, the tracking devices,
the addition of a correction to a state and the decompositions of nalgebra are parameters. The logs are not
modelled. `f64::MAX` is `none` (only compared with the `<` operator to a finite number, or returned).
-/
namespace Verif.Blse
open Verif.Kalman Verif.Process Matrix

variable {T K Ω : Type} [DecidableEq K] {s : Nat}

/-- The functions of a tracking device used by the estimator, for one type of measurement: the row of
`h_tilde::<U1>`, `measure_instantaneous`, and the only entry of `measurement_covar_matrix::<U1>`.
od/blse/mod.rs:244-280. -/
structure BDev (T K Ω : Type) (s : Nat) where
  hTilde : Meas T K → K → Nominal Ω s → Res (Fin s → ℝ)
  measure : Nominal Ω s → Res (Option (List (K × ℝ)))
  variance : K → Int → Res ℝ

/-- `BLSSolver`. od/blse/mod.rs:46-57. -/
inductive Solver where
  | normalEquations
  | levenbergMarquardt
deriving DecidableEq

/-- `BatchLeastSquares` with the external functions: `adv p d` is `for_duration(d)`, `plus` the addition of
a state and a vector, `chol` the Cholesky decomposition, `udu` the decomposition in `U D U^T` (`none` when it
fails). od/blse/mod.rs:62-120. -/
structure BCfg (T K Ω : Type) (s : Nat) where
  propStep : Int
  devices : T → Option (BDev T K Ω s)
  solver : Solver
  tolerance : ℝ
  maxIterations : Nat
  maxStep : Int
  precision : Int
  lambdaInit : ℝ
  lambdaDecrease : ℝ
  lambdaIncrease : ℝ
  lambdaMin : ℝ
  lambdaMax : ℝ
  diagScaling : Bool
  adv : PInst Ω s → Int → Res (PInst Ω s)
  plus : Nominal Ω s → (Fin s → ℝ) → Nominal Ω s
  chol : Matrix (Fin s) (Fin s) ℝ → Option (Matrix (Fin s) (Fin s) ℝ)
  udu : Matrix (Fin s) (Fin s) ℝ → Option (Matrix (Fin s) (Fin s) ℝ × (Fin s → ℝ))

/-- The three accumulators of an iteration. od/blse/mod.rs:186-190. -/
structure Sums (s : Nat) where
  info : Matrix (Fin s) (Fin s) ℝ
  normal : Fin s → ℝ
  sumSq : ℝ

/-- Their initial value: the information matrix starts as the identity. od/blse/mod.rs:186-190. -/
def Sums.init : Sums s := ⟨1, 0, 0⟩

/-- The three accumulations, for the row `h`, the residual `r` and the weight `w`. od/blse/mod.rs:288-296. -/
noncomputable def Sums.add (q : Sums s) (h : Fin s → ℝ) (r w : ℝ) : Sums s :=
  ⟨q.info + w • vecMulVec h h, q.normal + (r * w) • h, q.sumSq + w * r * r⟩

/-- The body of the loop over the types, for type `k` with value `v` (`none` is not finite); `x` is the
propagated state and `M` the accumulated matrix. od/blse/mod.rs:240-297. -/
noncomputable def useValue (dev : BDev T K Ω s) (z : Meas T K) (x : Nominal Ω s)
    (M : Matrix (Fin s) (Fin s) ℝ) (k : K) (v : Option ℝ) (q : Sums s) : Res (Sums s) :=
  (dev.hTilde z k x).bind fun h =>
  (dev.measure x).bind fun o =>
    match o with
    | none => .ok q
    | some comp =>
      match v with
      | none => .err
      | some real => (dev.variance k z.epoch).bind fun R =>
        if 0 < R then .ok (q.add (h ᵥ* M) (real - (look comp k).getD 0) (1 / R)) else .err

/-- The loop over the types of a measurement. od/blse/mod.rs:240-297. -/
noncomputable def useAll (dev : BDev T K Ω s) (z : Meas T K) (x : Nominal Ω s)
    (M : Matrix (Fin s) (Fin s) ℝ) : List (K × Option ℝ) → Sums s → Res (Sums s)
  | [], q => .ok q
  | (k, v) :: l, q => (useValue dev z x M k v q).bind fun q' => useAll dev z x M l q'

/-- The mutable variables of an iteration. -/
structure BSt (Ω : Type) (s : Nat) where
  inst : PInst Ω s
  epoch : Int
  stm : Matrix (Fin s) (Fin s) ℝ
  sums : Sums s

/-- The variables when an iteration starts; `with_stm` sets the transition matrix to the identity.
od/blse/mod.rs:184-197. -/
def startAt (cfg : BCfg T K Ω s) (x : Nominal Ω s) : BSt Ω s :=
  ⟨⟨{ x with stm := some 1 }, cfg.propStep⟩, x.epoch, 1, Sums.init⟩

/-- What is done at the state reached when it is close enough to the measurement: nothing if the tracker is
unknown. od/blse/mod.rs:224-298. -/
noncomputable def atMsr (cfg : BCfg T K Ω s) (z : Meas T K) (x : Nominal Ω s)
    (M : Matrix (Fin s) (Fin s) ℝ) (q : Sums s) : Res (Sums s) :=
  if |x.epoch - z.epoch| < cfg.precision then
    match cfg.devices z.tracker with
    | none => .ok q
    | some dev => useAll dev z x M z.data q
  else .ok q

/-- The length of the next step. od/blse/mod.rs:213. -/
def nextStep (cfg : BCfg T K Ω s) (z : Meas T K) (st : BSt Ω s) : Int :=
  min (min (z.epoch - st.epoch) st.inst.step) cfg.maxStep

/-- The inner loop for one measurement, with fuel; `none` when it runs out. The transition matrix missing
from the propagated state is a panic (`expect`). od/blse/mod.rs:205-299. -/
noncomputable def gatherOne (cfg : BCfg T K Ω s) (z : Meas T K) : Nat → BSt Ω s → Option (Res (BSt Ω s))
  | 0, _ => none
  | n + 1, st =>
    if z.epoch - st.epoch ≤ 0 then some (.ok st)
    else
      match cfg.adv st.inst (nextStep cfg z st) with
      | .err => some .err
      | .panic => some .panic
      | .ok p =>
        match p.state.stm with
        | none => some .panic
        | some M =>
          match atMsr cfg z p.state (M * st.stm) st.sums with
          | .err => some .err
          | .panic => some .panic
          | .ok q => gatherOne cfg z n ⟨p, p.state.epoch, M * st.stm, q⟩

/-- The loop over the measurements that are not rejected. od/blse/mod.rs:199-300. -/
noncomputable def gather (cfg : BCfg T K Ω s) (fuel : Nat) :
    List (Meas T K) → BSt Ω s → Option (Res (BSt Ω s))
  | [], st => some (.ok st)
  | z :: zs, st =>
    if z.rejected then gather cfg fuel zs st
    else
      match gatherOne cfg z fuel st with
      | none => none
      | some (.ok st') => gather cfg fuel zs st'
      | some r => some r

/-- The number of measurements used as divisor. od/blse/mod.rs:152, 307. -/
def numMsr (arc : List (Meas T K)) : Nat := (arc.filter fun z => !z.rejected).length

/-- `current_iter_rms`. od/blse/mod.rs:307. -/
noncomputable def rmsOf (num : Nat) (q : Sums s) : ℝ := Real.sqrt (q.sumSq / (num : ℝ))

/-- The variables that survive an iteration. `corr` and `rms` start at `f64::MAX` (`none`).
od/blse/mod.rs:169-175. -/
structure It (Ω : Type) (s : Nat) where
  est : Nominal Ω s
  covar : Matrix (Fin s) (Fin s) ℝ
  converged : Bool
  corr : Option ℝ
  lambda : ℝ
  rms : Option ℝ
  iter : Nat

/-- The covariance: the inverse of the information matrix by its `U D U^T` decomposition, the identity when
it fails. od/blse/mod.rs:397-416. -/
noncomputable def covarOf (cfg : BCfg T K Ω s) (info : Matrix (Fin s) (Fin s) ℝ) :
    Matrix (Fin s) (Fin s) ℝ :=
  match cfg.udu info with
  | none => 1
  | some (U, d) => open Classical in
    if IsUnit U.det then (U⁻¹)ᵀ * (diagonal (fun i => 1 / d i) * U⁻¹) else 1

/-- The norm of the correction on the position: the first three components. Sizes below six do not exist in
the code, the model allows them. od/blse/mod.rs:386. -/
noncomputable def posNorm (dx : Fin s → ℝ) : ℝ :=
  Real.sqrt (∑ i : Fin s, if i.val < 3 then dx i ^ 2 else 0)

/-- The update of the estimate with an accepted correction, and whether the loop is left.
od/blse/mod.rs:384-423. -/
noncomputable def accept (cfg : BCfg T K Ω s) (q : Sums s) (dx : Fin s → ℝ) (it : It Ω s) : It Ω s × Bool :=
  open Classical in
  ({ it with est := cfg.plus it.est dx, corr := some (posNorm dx), covar := covarOf cfg q.info,
             converged := if posNorm dx < cfg.tolerance then true else it.converged },
    if posNorm dx < cfg.tolerance then true else false)

/-- The scaling matrix of the Levenberg-Marquardt solver: the first six diagonal elements of the information
matrix, floored when they are not positive; identity otherwise. od/blse/mod.rs:325-338. -/
noncomputable def dSq (cfg : BCfg T K Ω s) (info : Matrix (Fin s) (Fin s) ℝ) : Matrix (Fin s) (Fin s) ℝ :=
  open Classical in
  diagonal fun i =>
    if cfg.diagScaling ∧ i.val < 6 then (if info i i ≤ 0 then 1 / 1000000 else info i i) else 1

/-- Whether a root mean square is below the current one. od/blse/mod.rs:349: `iter == 0` is never true, as
the counter is incremented first. -/
noncomputable def improves (r : ℝ) : Option ℝ → Bool
  | none => true
  | some c => open Classical in decide (r < c)

/-- The solution of the linear system and the update, for the normal equations.
od/blse/mod.rs:310-320, 384-423. -/
noncomputable def stepNormal (cfg : BCfg T K Ω s) (num : Nat) (q : Sums s) (it : It Ω s) :
    Res (It Ω s × Bool) :=
  match cfg.chol q.info with
  | none => .err
  | some _ => .ok (accept cfg q (q.info⁻¹ *ᵥ q.normal) { it with rms := some (rmsOf num q) })

/-- The same for the Levenberg-Marquardt solver. od/blse/mod.rs:321-430. -/
noncomputable def stepLm (cfg : BCfg T K Ω s) (num : Nat) (q : Sums s) (it : It Ω s) :
    Res (It Ω s × Bool) :=
  match cfg.chol (q.info + it.lambda • dSq cfg q.info) with
  | none => .ok ({ it with lambda := min (it.lambda * (cfg.lambdaIncrease * 10)) cfg.lambdaMax }, false)
  | some _ =>
    if improves (rmsOf num q) it.rms then
      .ok (accept cfg q ((q.info + it.lambda • dSq cfg q.info)⁻¹ *ᵥ q.normal)
        { it with lambda := max (it.lambda / cfg.lambdaDecrease) cfg.lambdaMin, rms := some (rmsOf num q) })
    else
      .ok ({ it with lambda := min (it.lambda * cfg.lambdaIncrease) cfg.lambdaMax, corr := none }, false)

/-- The solver called. od/blse/mod.rs:309. -/
noncomputable def stepOf (cfg : BCfg T K Ω s) (num : Nat) (q : Sums s) (it : It Ω s) : Res (It Ω s × Bool) :=
  match cfg.solver with
  | .normalEquations => stepNormal cfg num q it
  | .levenbergMarquardt => stepLm cfg num q it

/-- The iterations; the number is the one of iterations left. od/blse/mod.rs:180-431. -/
noncomputable def iterate (cfg : BCfg T K Ω s) (fuel : Nat) (arc : List (Meas T K)) :
    Nat → It Ω s → Option (Res (It Ω s))
  | 0, it => some (.ok it)
  | n + 1, it =>
    match gather cfg fuel arc (startAt cfg it.est) with
    | none => none
    | some .err => some .err
    | some .panic => some .panic
    | some (.ok st) =>
      match stepOf cfg (numMsr arc) st.sums { it with iter := it.iter + 1 } with
      | .err => some .err
      | .panic => some .panic
      | .ok (it', true) => some (.ok it')
      | .ok (it', false) => iterate cfg fuel arc n it'

/-- The initial value of the variables. od/blse/mod.rs:169-175. -/
noncomputable def initIt (cfg : BCfg T K Ω s) (x : Nominal Ω s) : It Ω s :=
  ⟨x, 0, false, none, cfg.lambdaInit, none, 0⟩

/-- `estimate`; the solution has the fields of `It` without `lambda`. od/blse/mod.rs:146-446. -/
noncomputable def estimate (cfg : BCfg T K Ω s) (fuel : Nat) (guess : Nominal Ω s) (arc : List (Meas T K)) :
    Option (Res (It Ω s)) :=
  if numMsr arc < 2 then some .err
  else iterate cfg fuel arc cfg.maxIterations (initIt cfg guess)

/-! ### evaluate -/

/-- The body of the loop over the types. od/blse/mod.rs:504-535. -/
noncomputable def evalValue (dev : BDev T K Ω s) (z : Meas T K) (x : Nominal Ω s) (k : K) (v : Option ℝ)
    (sum : ℝ) : Res ℝ :=
  (dev.measure x).bind fun o =>
    match o with
    | none => .ok sum
    | some comp =>
      match v with
      | none => .err
      | some real => (dev.variance k z.epoch).bind fun R =>
        if 0 < R then
          .ok (sum + 1 / R * (real - (look comp k).getD 0) * (real - (look comp k).getD 0)) else .err

/-- The loop over the types. od/blse/mod.rs:504-535. -/
noncomputable def evalAll (dev : BDev T K Ω s) (z : Meas T K) (x : Nominal Ω s) :
    List (K × Option ℝ) → ℝ → Res ℝ
  | [], q => .ok q
  | (k, v) :: l, q => (evalValue dev z x k v q).bind fun q' => evalAll dev z x l q'

/-- od/blse/mod.rs:489-536. -/
noncomputable def evalMsr (cfg : BCfg T K Ω s) (z : Meas T K) (x : Nominal Ω s) (q : ℝ) : Res ℝ :=
  if |x.epoch - z.epoch| < cfg.precision then
    match cfg.devices z.tracker with
    | none => .ok q
    | some dev => evalAll dev z x z.data q
  else .ok q

/-- The inner loop of `evaluate`, with fuel: instance, epoch and sum. od/blse/mod.rs:479-537. -/
noncomputable def evalOne (cfg : BCfg T K Ω s) (z : Meas T K) :
    Nat → PInst Ω s × Int × ℝ → Option (Res (PInst Ω s × Int × ℝ))
  | 0, _ => none
  | n + 1, st =>
    if z.epoch - st.2.1 ≤ 0 then some (.ok st)
    else
      match cfg.adv st.1 (min (min (z.epoch - st.2.1) st.1.step) cfg.maxStep) with
      | .err => some .err
      | .panic => some .panic
      | .ok p =>
        match evalMsr cfg z p.state st.2.2 with
        | .err => some .err
        | .panic => some .panic
        | .ok q => evalOne cfg z n (p, p.state.epoch, q)

/-- The loop over the measurements. od/blse/mod.rs:473-538. -/
noncomputable def evalGather (cfg : BCfg T K Ω s) (fuel : Nat) :
    List (Meas T K) → PInst Ω s × Int × ℝ → Option (Res (PInst Ω s × Int × ℝ))
  | [], st => some (.ok st)
  | z :: zs, st =>
    if z.rejected then evalGather cfg fuel zs st
    else
      match evalOne cfg z fuel st with
      | none => none
      | some (.ok st') => evalGather cfg fuel zs st'
      | some r => some r

/-- `evaluate`. od/blse/mod.rs:450-541. -/
noncomputable def evaluate (cfg : BCfg T K Ω s) (fuel : Nat) (x : Nominal Ω s) (arc : List (Meas T K)) :
    Option (Res ℝ) :=
  if numMsr arc < 1 then some .err
  else
    match evalGather cfg fuel arc (⟨{ x with stm := some 1 }, cfg.propStep⟩, x.epoch, 0) with
    | none => none
    | some .err => some .err
    | some .panic => some .panic
    | some (.ok st) => some (.ok (Real.sqrt (st.2.2 / (numMsr arc : ℝ))))

/-! ### Conversion to an estimate of the filter -/

/-- The covariance of `KfEstimate::from(BLSSolution)`: three diagonal elements are set to zero; a size below
nine is a panic. od/blse/solution.rs:85-92. -/
noncomputable def toKfCovar (P : Matrix (Fin s) (Fin s) ℝ) : Res (Matrix (Fin s) (Fin s) ℝ) :=
  if s < 9 then .panic
  else .ok (of fun i j => if i = j ∧ (i.val = 6 ∨ i.val = 7 ∨ i.val = 8) then 0 else P i j)

end Verif.Blse
