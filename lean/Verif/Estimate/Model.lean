import Verif.Mc.Examples
/-!
Model of the estimates and of the initial uncertainties: od/estimate/{mod,kfestimate,sc_uncertainty,residual}.rs.
Floating point numbers are reals; a square root of a negative number (NaN) is `none`.
Paths are relative to nyx-core/src/od/estimate.
-/
namespace Verif.Estimate
open Verif.Spacecraft Matrix
open Verif.Mc (Out Ext Disp mvnNew fromCov Gen)

variable {E Fr X L : Type}

/-- `KfEstimate`, kfestimate.rs:41-62, for a state `X` of size `n`. -/
structure Kf (X : Type) (n : Nat) where
  nominal : X
  dev : Fin n → ℝ
  covar : Matrix (Fin n) (Fin n) ℝ
  covarBar : Matrix (Fin n) (Fin n) ℝ
  predicted : Bool
  stm : Matrix (Fin n) (Fin n) ℝ

/-- `from_covar`, kfestimate.rs:74-86. -/
def fromCovar {n : Nat} (x : X) (c : Matrix (Fin n) (Fin n) ℝ) : Kf X n := ⟨x, 0, c, c, true, 1⟩

/-- `from_diag`, kfestimate.rs:89-99. -/
def fromDiag {n : Nat} (x : X) (d : Fin n → ℝ) : Kf X n := ⟨x, 0, diagonal d, diagonal d, true, 1⟩

/-- `zeros`, kfestimate.rs:237-246. -/
def zeros {n : Nat} (x : X) : Kf X n := ⟨x, 0, 0, 0, true, 1⟩

/-- `state`, od/estimate/mod.rs:54-56, with the sum of the state type as a parameter. -/
def Kf.state {n : Nat} (add : X → (Fin n → ℝ) → X) (e : Kf X n) : X := add e.nominal e.dev

/-- `set_epoch`, od/estimate/mod.rs:50-52: the epoch is set on the state computed, which is dropped. -/
def Kf.setEpoch {n : Nat} (e : Kf X n) (_ : Int) : Kf X n := e

/-- `set_state_deviation`, kfestimate.rs:270-272. -/
def Kf.setDev {n : Nat} (e : Kf X n) (d : Fin n → ℝ) : Kf X n := { e with dev := d }

/-- `set_covar`, kfestimate.rs:273-275. -/
def Kf.setCovar {n : Nat} (e : Kf X n) (c : Matrix (Fin n) (Fin n) ℝ) : Kf X n := { e with covar := c }

/-- `Mul<f64>`, kfestimate.rs:372-375. -/
def Kf.scale {n : Nat} (e : Kf X n) (k : ℝ) : Kf X n := { e with covar := (k ^ 2) • e.covar }

/-- `f64::sqrt`: NaN for a negative number. -/
noncomputable def nsqrt (x : ℝ) : Option ℝ := if 0 ≤ x then some (Real.sqrt x) else none

/-- The test of od/estimate/mod.rs:80: both comparisons are false with NaN. -/
noncomputable def beyond (v : ℝ) : Option ℝ → Bool
  | none => false
  | some b => decide (v > b) || decide (v < -b)

/-- `within_sigma`, od/estimate/mod.rs:75-85. -/
noncomputable def Kf.within {n : Nat} (e : Kf X n) (sigma : ℝ) : Bool :=
  (List.finRange n).all fun i => !beyond (e.dev i) ((nsqrt (e.covar i i)).map (· * sigma))

/-- `within_3sigma`, od/estimate/mod.rs:87-89. -/
noncomputable def Kf.within3 {n : Nat} (e : Kf X n) : Bool := e.within 3

/-- The numbers after `sigmas` in `Display`, kfestimate.rs:297-312, in meters, meters per second and no
unit. -/
noncomputable def Kf.shown {n : Nat} (e : Kf X n) : List ℝ := (List.finRange n).map fun i => e.covar i i * 1000

/-- The numbers after `sigmas` in `LowerExp`, kfestimate.rs:338-346, in kilometers and kilometers per
second. -/
noncomputable def Kf.shownExp {n : Nat} (e : Kf X n) : List ℝ := (List.finRange n).map fun i => e.covar i i

/-- The deviation in kfestimate.rs:122-134. -/
def deviation (nom d : Craft ℝ Fr) : Fin 9 → ℝ :=
  ![nom.pos 0 - d.pos 0, nom.pos 1 - d.pos 1, nom.pos 2 - d.pos 2, nom.vel 0 - d.vel 0, nom.vel 1 - d.vel 1,
    nom.vel 2 - d.vel 2, nom.cr - d.cr, nom.cd - d.cd, nom.prop - d.prop]

/-- `from_dispersions`, kfestimate.rs:108-155. `z` are the nine draws of the generator from the seed. The
difference of the orbits (`unwrap` on the same frame and epoch) is by components. -/
noncomputable def fromDispersions (x : Ext E Fr) (nom : Craft ℝ Fr) (ds : List (Disp E)) (z : Fin 9 → ℝ) :
    Out (Kf (Craft ℝ Fr) 9) :=
  (mvnNew x nom ds).bind fun g => (g.sample x z).bind fun d =>
    .ok ⟨nom, deviation nom d.state, diagonal fun i => (3 * |deviation nom d.state i|) ^ 2,
      diagonal fun i => (3 * |deviation nom d.state i|) ^ 2, true, 1⟩

/-- `to_random_variable`, kfestimate.rs:158-160. -/
noncomputable def Kf.toRandom (x : Ext E Fr) (ax : Fin 6 → E) (e : Kf (Craft ℝ Fr) 9) : Out (Gen E Fr) :=
  fromCov x ax e.nominal e.covar e.dev

/-- `fixed_view::<6, 6>(0, 0)`. -/
def view6 (c : Matrix (Fin 9) (Fin 9) ℝ) : Matrix (Fin 6) (Fin 6) ℝ :=
  c.submatrix (Fin.castLE (by decide)) (Fin.castLE (by decide))

/-- `sigma_for`, kfestimate.rs:166-188. `partials` is `OrbitGrad::partial_for`, `none` for its error; the
value is `none` for NaN. -/
noncomputable def Kf.sigmaFor (partials : Craft ℝ Fr → E → Option (Fin 6 → ℝ)) (e : Kf (Craft ℝ Fr) 9) (p : E) :
    Out (Option ℝ) :=
  (partials e.nominal p).elim .err fun g => .ok (nsqrt ((replicateRow (Fin 1) g * view6 e.covar * (replicateRow (Fin 1) g)ᵀ) 0 0))

/-- The rows of the matrix of kfestimate.rs:193-220; `unwrap` of the partials. -/
def rowsOf {k : Nat} (partials : Craft ℝ Fr → E → Option (Fin 6 → ℝ)) (s : Craft ℝ Fr) (ps : Fin k → E) :
    Option (Matrix (Fin k) (Fin 6) ℝ) :=
  if ∀ i, (partials s (ps i)).isSome then some (of fun i => (partials s (ps i)).getD 0) else none

/-- `keplerian_covar`, kfestimate.rs:191-225, with the six elements `ps`. -/
noncomputable def Kf.keplerian (partials : Craft ℝ Fr → E → Option (Fin 6 → ℝ)) (ps : Fin 6 → E)
    (e : Kf (Craft ℝ Fr) 9) : Out (Matrix (Fin 6) (Fin 6) ℝ) :=
  (rowsOf partials e.nominal ps).elim .panic fun r => .ok (r * view6 e.covar * rᵀ)

/-! ### Initial uncertainty -/

/-- `SpacecraftUncertainty`, sc_uncertainty.rs:41-63. `L` are the local frames. -/
structure Unc (L Fr : Type) where
  nominal : Craft ℝ Fr
  frame : Option L
  sig : Fin 6 → ℝ
  cr : ℝ
  cd : ℝ
  mass : ℝ

/-- The test of sc_uncertainty.rs:71-79. -/
noncomputable def Unc.negative (u : Unc L Fr) : Bool :=
  (List.finRange 6).any (fun i => decide (u.sig i < 0)) || decide (u.cd < 0) || decide (u.cr < 0) || decide (u.mass < 0)

/-- The diagonal of sc_uncertainty.rs:105-116. -/
def Unc.coeffs (u : Unc L Fr) : Fin 9 → ℝ := ![0, 0, 0, 0, 0, 0, u.cr ^ 2, u.cd ^ 2, u.mass ^ 2]

/-- The loops of sc_uncertainty.rs:130-134. -/
def write6 (c : Matrix (Fin 9) (Fin 9) ℝ) (o : Matrix (Fin 6) (Fin 6) ℝ) : Matrix (Fin 9) (Fin 9) ℝ :=
  of fun i j => if h : i.val < 6 ∧ j.val < 6 then o ⟨i.val, h.1⟩ ⟨j.val, h.2⟩ else c i j

/-- `to_estimate`, sc_uncertainty.rs:70-137. `dcm s f` is `s.orbit.dcm_to_inertial(f)?.state_dcm()`, the matrix
which takes the six components in the frame `f` to the inertial ones. -/
noncomputable def Unc.toEstimate (inertial : L) (dcm : Craft ℝ Fr → L → Option (Matrix (Fin 6) (Fin 6) ℝ))
    (u : Unc L Fr) : Option (Kf (Craft ℝ Fr) 9) :=
  if u.negative then none
  else (dcm u.nominal (u.frame.getD inertial)).map fun d =>
    fromCovar u.nominal (write6 (diagonal u.coeffs) (dᵀ * diagonal (fun i => u.sig i ^ 2) * d))

/-- `to_estimate_randomized`, sc_uncertainty.rs:141-162. `z` are the nine draws of the generator. -/
noncomputable def Unc.randomized (x : Ext E Fr) (ax : Fin 6 → E) (inertial : L)
    (dcm : Craft ℝ Fr → L → Option (Matrix (Fin 6) (Fin 6) ℝ)) (u : Unc L Fr) (z : Fin 9 → ℝ) :
    Out (Kf (Craft ℝ Fr) 9) :=
  (u.toEstimate inertial dcm).elim .err fun e => match fromCov x ax u.nominal e.covar 0 with
    | .ok g => (g.sample x z).bind fun d => .ok { e with nominal := d.state }
    | _ => .panic

/-! ### Residuals -/

/-- `Residual`, residual.rs:28-58, for `m` types `T`. The epoch and the tracker are not modelled. -/
structure Resid (T : Type) (m : Nat) where
  prefit : Fin m → ℝ
  postfit : Option (Fin m → ℝ)
  whitened : Fin m → ℝ
  ratio : ℝ
  noise : Fin m → ℝ
  rejected : Bool
  types : List T
  real : Fin m → ℝ
  computed : Fin m → ℝ

/-- `Residual::rejected`, residual.rs:84-107: the postfit is NaN. -/
def Resid.reject {T : Type} {m : Nat} (prefit whitened : Fin m → ℝ) (ratio : ℝ) (noise real computed : Fin m → ℝ) :
    Resid T m := ⟨prefit, none, whitened, ratio, noise, true, [], real, computed⟩

/-- `Residual::accepted`, residual.rs:109-132. -/
def Resid.accept {T : Type} {m : Nat} (prefit whitened postfit : Fin m → ℝ) (ratio : ℝ)
    (noise real computed : Fin m → ℝ) : Resid T m :=
  ⟨prefit, some postfit, whitened, ratio, noise, false, [], real, computed⟩

/-- The vector at the index of the type, residual.rs:135-174: outside of the vector the index panics. -/
def compOf {T : Type} [DecidableEq T] {m : Nat} (types : List T) (v : Fin m → ℝ) (k : T) : Out (Option ℝ) :=
  if k ∈ types then (if h : types.idxOf k < m then .ok (some (v ⟨types.idxOf k, h⟩)) else .panic) else .ok none

/-- `nis`, residual.rs:175-177. -/
def Resid.nis {T : Type} {m : Nat} (r : Resid T m) : ℝ := ∑ i, r.whitened i * r.whitened i

end Verif.Estimate
