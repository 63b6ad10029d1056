import Mathlib.Analysis.SpecialFunctions.Complex.Arg
import Mathlib.Analysis.SpecialFunctions.Log.Base
import Mathlib.Analysis.SpecialFunctions.Trigonometric.Inverse
import Mathlib.LinearAlgebra.CrossProduct
import Mathlib.LinearAlgebra.Matrix.NonsingularInverse
import Mathlib.LinearAlgebra.Matrix.Notation
/-!
Model of nyx-core/src/utils.rs and of the angle functions of nyx-core/src/dynamics/guidance/mod.rs.
Floating point numbers are reals; `eps` is `f64::EPSILON`.
-/
namespace Verif.MathU
open Matrix

/-- Vectors of three components. -/
abbrev V3 := Fin 3 → ℝ

/-- `f64::EPSILON`. -/
noncomputable def eps : ℝ := 1 / 2 ^ 52

/-- The norm of nalgebra. -/
noncomputable def nrm {n : Nat} (v : Fin n → ℝ) : ℝ := Real.sqrt (v ⬝ᵥ v)

/-- The operator `%` of Rust on floating point numbers: the quotient is truncated towards zero. -/
noncomputable def fmod (x y : ℝ) : ℝ := x - y * (if 0 ≤ x / y then ⌊x / y⌋ else ⌈x / y⌉)

/-- `tilde_matrix`. utils.rs:38-40. -/
def tildeMatrix (v : V3) : Matrix (Fin 3) (Fin 3) ℝ := !![0, -v 2, v 1; v 2, 0, -v 0; -v 1, v 0, 0]

/-- `is_diagonal`. utils.rs:73-82. -/
noncomputable def isDiagonal (m : Matrix (Fin 3) (Fin 3) ℝ) : Bool :=
  (List.finRange 3).all fun i => (List.finRange 3).all fun j => !(decide (i ≠ j) && decide (|m i j| > eps))

/-- `between_0_360`. utils.rs:130-136. -/
noncomputable def between0360 (angle : ℝ) : ℝ :=
  if fmod angle 360 < 0 then fmod angle 360 + 360 else fmod angle 360

/-- `between_pm_x`. utils.rs:153-162. -/
noncomputable def betweenPmX (angle x : ℝ) : ℝ :=
  let b := if fmod angle (2 * x) > x then fmod angle (2 * x) - 2 * x else fmod angle (2 * x)
  if b < -x then b + 2 * x else b

/-- `between_pm_180`. utils.rs:139-141. -/
noncomputable def betweenPm180 (angle : ℝ) : ℝ := betweenPmX angle 180

/-- `kronecker`. utils.rs:165-171. -/
noncomputable def kronecker (a b : ℝ) : ℝ := if |a - b| ≤ eps then 1 else 0

/-- `r1`. utils.rs:197-200. -/
noncomputable def r1 (a : ℝ) : Matrix (Fin 3) (Fin 3) ℝ :=
  !![1, 0, 0; 0, Real.cos a, Real.sin a; 0, -Real.sin a, Real.cos a]

/-- `r2`. utils.rs:226-229. -/
noncomputable def r2 (a : ℝ) : Matrix (Fin 3) (Fin 3) ℝ :=
  !![Real.cos a, 0, -Real.sin a; 0, 1, 0; Real.sin a, 0, Real.cos a]

/-- `r3`. utils.rs:255-258. -/
noncomputable def r3 (a : ℝ) : Matrix (Fin 3) (Fin 3) ℝ :=
  !![Real.cos a, Real.sin a, 0; -Real.sin a, Real.cos a, 0; 0, 0, 1]

/-- `Vector3::normalize`. -/
noncomputable def normalizeV (v : V3) : V3 := (1 / nrm v) • v

/-- `rotv`. utils.rs:271-276. -/
noncomputable def rotv (v axis : V3) (θ : ℝ) : V3 :=
  Real.cos θ • v + Real.sin θ • (normalizeV axis ⨯₃ v) +
    ((normalizeV axis ⬝ᵥ v) * (1 - Real.cos θ)) • normalizeV axis

/-- `amax`: the largest absolute value of the components. -/
noncomputable def amax (v : V3) : ℝ := max (max |v 0| |v 1|) |v 2|

/-- `projv`. utils.rs:313-320. -/
noncomputable def projv (a b : V3) : V3 :=
  if |b ⬝ᵥ b| < eps then 0 else (a ⬝ᵥ b / (b ⬝ᵥ b)) • b

/-- `perpv`. utils.rs:288-301. -/
noncomputable def perpv (a b : V3) : V3 :=
  if amax a < eps then 0
  else if amax b < eps then a
  else amax a • ((1 / amax a) • a - projv ((1 / amax a) • a) ((1 / amax b) • b))

/-- `rss_errors`. utils.rs:332-342. -/
noncomputable def rssErrors {n : Nat} (a b : Fin n → ℝ) : ℝ := Real.sqrt (∑ i, (a i - b i) ^ 2)

/-- `normalize`. utils.rs:388-390. -/
noncomputable def normalize (x lo hi : ℝ) : ℝ := 2 * (x - lo) / (hi - lo) - 1

/-- `denormalize`. utils.rs:403-405. -/
noncomputable def denormalize (xp lo hi : ℝ) : ℝ := (hi - lo) * (xp + 1) / 2 + lo

/-- `try_inverse` of nalgebra, by its specification. -/
noncomputable def tryInverse {n : Nat} (m : Matrix (Fin n) (Fin n) ℝ) : Option (Matrix (Fin n) (Fin n) ℝ) :=
  if m.det = 0 then none else some m⁻¹

/-- `pseudo_inverse!`; `none` is the error of a singular Jacobian. utils.rs:428-445. -/
noncomputable def pseudoInverse {m n : Nat} (A : Matrix (Fin m) (Fin n) ℝ) :
    Option (Matrix (Fin n) (Fin m) ℝ) :=
  if m < n then (tryInverse (A * Aᵀ)).map fun B => Aᵀ * B
  else (tryInverse (Aᵀ * A)).map fun B => B * Aᵀ

/-- `mag_order`. utils.rs:454-456. -/
noncomputable def magOrder (x : ℝ) : Int := ⌊Real.logb 10 |x|⌋

/-- `unitize`. utils.rs:459-465. -/
noncomputable def unitize (v : V3) : V3 := if nrm v < eps then v else (1 / nrm v) • v

/-- `f64::atan2(y, x)`: the argument of `x + i y`. -/
noncomputable def atan2 (y x : ℝ) : ℝ := Complex.arg ⟨x, y⟩

/-- `cartesian_to_spherical`. utils.rs:469-478. -/
noncomputable def toSpherical (v : V3) : ℝ × ℝ × ℝ :=
  if nrm v < eps then (0, 0, 0) else (nrm v, atan2 (v 1) (v 0), Real.arccos (v 2 / nrm v))

/-- `spherical_to_cartesian`. utils.rs:483-493. -/
noncomputable def toCartesian (ρ θ φ : ℝ) : V3 :=
  if ρ < eps then 0
  else ![ρ * Real.sin φ * Real.cos θ, ρ * Real.sin φ * Real.sin θ, ρ * Real.cos φ]

/-- `unit_vector_from_plane_angles`. dynamics/guidance/mod.rs:128-134. -/
noncomputable def vecOfPlane (α β : ℝ) : V3 :=
  ![Real.sin α * Real.cos β, Real.cos α * Real.cos β, Real.sin β]

/-- `plane_angles_from_unit_vector`. dynamics/guidance/mod.rs:137-139. -/
noncomputable def planeOfVec (v : V3) : ℝ × ℝ := (atan2 (v 1) (v 0), Real.arcsin (v 2))

/-- `unit_vector_from_ra_dec`. dynamics/guidance/mod.rs:142-148. -/
noncomputable def vecOfRaDec (α δ : ℝ) : V3 :=
  ![Real.cos δ * Real.cos α, Real.cos δ * Real.sin α, Real.sin δ]

/-- `ra_dec_from_unit_vector`. dynamics/guidance/mod.rs:151-155. -/
noncomputable def raDecOfVec (v : V3) : ℝ × ℝ := (atan2 (v 1) (v 0), Real.arcsin (v 2))

end Verif.MathU
