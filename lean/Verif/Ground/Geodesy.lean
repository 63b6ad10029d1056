import Verif.Ground.Model
import Verif.Gravity.Potential
import Mathlib.Analysis.SpecialFunctions.Trigonometric.Inverse
import Mathlib.Analysis.Calculus.Deriv.Prod
/-!
# Geodetic coordinates and their derivatives

The specification: an oblate ellipsoid with radii `a` and `b`, the place at a geodetic latitude, longitude
and height (all angles in degrees), characterized by `place_ground`, `place_normal` and `place_height`.
-/
namespace Verif.Ground
open Verif.Force
open Verif.MathU (V3 nrm)

/-- The unit vector up at a latitude and longitude in degrees. -/
noncomputable def up (lat lon : ℝ) : V3 :=
  ![Real.cos (lat * (Real.pi / 180)) * Real.cos (lon * (Real.pi / 180)),
    Real.cos (lat * (Real.pi / 180)) * Real.sin (lon * (Real.pi / 180)), Real.sin (lat * (Real.pi / 180))]

/-- The unit vector to the south. -/
noncomputable def south (lat lon : ℝ) : V3 :=
  ![Real.sin (lat * (Real.pi / 180)) * Real.cos (lon * (Real.pi / 180)),
    Real.sin (lat * (Real.pi / 180)) * Real.sin (lon * (Real.pi / 180)), -Real.cos (lat * (Real.pi / 180))]

/-- The unit vector to the east. -/
noncomputable def east (lon : ℝ) : V3 := ![-Real.sin (lon * (Real.pi / 180)), Real.cos (lon * (Real.pi / 180)), 0]

/-- The point of the ellipsoid where the outward normal is `up`, and the height along that normal. -/
noncomputable def place (a b lat lon h : ℝ) : V3 := fun i =>
  ![a ^ 2, a ^ 2, b ^ 2] i * up lat lon i /
    Real.sqrt (a ^ 2 * Real.cos (lat * (Real.pi / 180)) ^ 2 + b ^ 2 * Real.sin (lat * (Real.pi / 180)) ^ 2) + h * up lat lon i

section
variable {a b : ℝ} (lat lon h : ℝ)

theorem root_pos (ha : 0 < a) (hb : 0 < b) (t : ℝ) : 0 < a ^ 2 * Real.cos t ^ 2 + b ^ 2 * Real.sin t ^ 2 := by
  have := Real.sin_sq_add_cos_sq t
  rcases eq_or_ne (Real.cos t) 0 with hc | hc
  · have : Real.sin t ^ 2 = 1 := by rw [hc] at this; linarith
    rw [hc, this]; positivity
  · positivity

/-- At height zero the place is on the ellipsoid. -/
theorem place_ground (ha : 0 < a) (hb : 0 < b) :
    (place a b lat lon 0 0 ^ 2 + place a b lat lon 0 1 ^ 2) / a ^ 2 + place a b lat lon 0 2 ^ 2 / b ^ 2 = 1 := by
  have hp := root_pos ha hb (lat * (Real.pi / 180))
  have h1 := Real.sq_sqrt hp.le
  have h0 := Real.sqrt_pos.2 hp
  have h2 := Real.sin_sq_add_cos_sq (lon * (Real.pi / 180))
  simp only [place, up, Matrix.cons_val]
  generalize lat * (Real.pi / 180) = u at *
  generalize lon * (Real.pi / 180) = v at *
  generalize Real.sqrt (a ^ 2 * Real.cos u ^ 2 + b ^ 2 * Real.sin u ^ 2) = D at *
  simp only [zero_mul, add_zero]
  field_simp
  rw [h1]
  linear_combination (a ^ 2 * Real.cos u ^ 2) * h2

/-- The direction up is that of the normal of the ellipsoid: the gradient of its equation. -/
theorem place_normal (ha : 0 < a) (hb : 0 < b) : ∃ k > 0, ∀ i, place a b lat lon 0 i / ![a ^ 2, a ^ 2, b ^ 2] i = k * up lat lon i := by
  have hp := root_pos ha hb (lat * (Real.pi / 180))
  have h0 := Real.sqrt_pos.2 hp
  refine ⟨_, inv_pos.2 h0, fun i => ?_⟩
  fin_cases i <;> simp [place] <;> field_simp

/-- The height is measured along the direction up. -/
theorem place_height : place a b lat lon h = place a b lat lon 0 + h • up lat lon := by
  funext i; simp [place]

/-- The directions are an orthonormal basis. -/
theorem up_unit : nrm (up lat lon) = 1 := by
  unfold nrm
  rw [Real.sqrt_eq_one]
  simp only [up, dotProduct, Fin.sum_univ_three, Matrix.cons_val]
  have h1 := Real.sin_sq_add_cos_sq (lon * (Real.pi / 180))
  have h2 := Real.sin_sq_add_cos_sq (lat * (Real.pi / 180))
  linear_combination h2 + Real.cos (lat * (Real.pi / 180)) ^ 2 * h1

end

/-! ### The derivatives -/

/-- A vector of six numbers as two vectors. -/
def stack (p v : V3) : Fin 6 → ℝ := ![p 0, p 1, p 2, v 0, v 1, v 2]

/-- The place of a state (latitude, longitude, height and their rates). -/
noncomputable def placeOf (a b : ℝ) (x : Fin 6 → ℝ) : V3 := place a b (x 0) (x 1) (x 2)

/-- `V x` is the velocity of an asset in the state `x`: the derivative of its place when its coordinates
change at the rates of the state. -/
def IsVelocity (a b : ℝ) (V : (Fin 6 → ℝ) → V3) : Prop :=
  ∀ x, HasDerivAt (fun t : ℝ => place a b (x 0 + t * x 3) (x 1 + t * x 4) (x 2 + t * x 5)) (V x) 0

section Proof
variable {a b : ℝ}

/-- `1 - e2 sin²`, as in the code. -/
noncomputable def ww (a b t : ℝ) : ℝ := 1 - (a * a - b * b) / (a * a) * Real.sin t * Real.sin t

theorem ww_eq (ha : 0 < a) (t : ℝ) : ww a b t = (a ^ 2 * Real.cos t ^ 2 + b ^ 2 * Real.sin t ^ 2) / a ^ 2 := by
  have h := Real.sin_sq_add_cos_sq t
  have hc : Real.cos t ^ 2 = 1 - Real.sin t ^ 2 := by linarith
  rw [ww, hc]
  field_simp
  ring

theorem ww_pos (ha : 0 < a) (hb : 0 < b) (t : ℝ) : 0 < ww a b t := by
  rw [ww_eq ha]
  exact div_pos (root_pos ha hb t) (by positivity)

/-- The radius of curvature of the code. -/
noncomputable def nn (a b t : ℝ) : ℝ := a / Real.sqrt (ww a b t)

theorem nn_eq (ha : 0 < a) (hb : 0 < b) (t : ℝ) :
    nn a b t = a ^ 2 / Real.sqrt (a ^ 2 * Real.cos t ^ 2 + b ^ 2 * Real.sin t ^ 2) := by
  have hp := root_pos ha hb t
  rw [nn, ww_eq ha, Real.sqrt_div hp.le, Real.sqrt_sq ha.le]
  have := Real.sqrt_pos.2 hp
  field_simp

theorem nn_b (ha : 0 < a) (hb : 0 < b) (t : ℝ) :
    nn a b t * (1 - (a * a - b * b) / (a * a)) = b ^ 2 / Real.sqrt (a ^ 2 * Real.cos t ^ 2 + b ^ 2 * Real.sin t ^ 2) := by
  have hp := Real.sqrt_pos.2 (root_pos ha hb t)
  rw [nn_eq ha hb]
  field_simp
  ring

/-- The place in the terms of the code. -/
theorem place_eq (ha : 0 < a) (hb : 0 < b) (lat lon h : ℝ) :
    place a b lat lon h = ![(nn a b (lat * (Real.pi / 180)) + h) * Real.cos (lat * (Real.pi / 180)) * Real.cos (lon * (Real.pi / 180)),
      (nn a b (lat * (Real.pi / 180)) + h) * Real.cos (lat * (Real.pi / 180)) * Real.sin (lon * (Real.pi / 180)),
      (nn a b (lat * (Real.pi / 180)) * (1 - (a * a - b * b) / (a * a)) + h) * Real.sin (lat * (Real.pi / 180))] := by
  rw [nn_b ha hb, nn_eq ha hb]
  funext i
  fin_cases i <;> simp [place, up] <;> ring

theorem hasDeriv_nn (ha : 0 < a) (hb : 0 < b) (t : ℝ) :
    HasDerivAt (nn a b) (nn a b t * ((a * a - b * b) / (a * a)) * Real.sin t * Real.cos t / ww a b t) t := by
  have hw := ww_pos ha hb t
  have hs := Real.sqrt_pos.2 hw
  have h1 : HasDerivAt (ww a b) (-(2 * ((a * a - b * b) / (a * a)) * Real.sin t * Real.cos t)) t := by
    have := ((((Real.hasDerivAt_sin t).const_mul ((a * a - b * b) / (a * a))).fun_mul (Real.hasDerivAt_sin t)).const_sub 1)
    refine this.congr_deriv ?_
    ring
  have h2 := (hasDerivAt_const t a).fun_div (h1.sqrt hw.ne') hs.ne'
  refine h2.congr_deriv ?_
  have hq := Real.sq_sqrt hw.le
  rw [nn]
  set r := Real.sqrt (ww a b t)
  rw [← hq]
  field_simp
  ring

/-- The velocity of the code. -/
noncomputable def velOf (a b : ℝ) (x : Fin 6 → ℝ) : V3 :=
  let la := x 0 * (Real.pi / 180)
  let lo := x 1 * (Real.pi / 180)
  let m := nn a b la * (1 - (a * a - b * b) / (a * a)) / ww a b la
  ![-(m + x 2) * Real.sin la * Real.cos lo * (x 3 * (Real.pi / 180)) +
      -(nn a b la + x 2) * Real.cos la * Real.sin lo * (x 4 * (Real.pi / 180)) + Real.cos la * Real.cos lo * x 5,
    -(m + x 2) * Real.sin la * Real.sin lo * (x 3 * (Real.pi / 180)) +
      (nn a b la + x 2) * Real.cos la * Real.cos lo * (x 4 * (Real.pi / 180)) + Real.cos la * Real.sin lo * x 5,
    (m * Real.cos la + x 2 * Real.cos la) * (x 3 * (Real.pi / 180)) + 0 * (x 4 * (Real.pi / 180)) + Real.sin la * x 5]

theorem velOf_velocity (ha : 0 < a) (hb : 0 < b) : IsVelocity a b (velOf a b) := by
  intro x
  have line : ∀ p q : ℝ, HasDerivAt (fun t : ℝ => (p + t * q) * (Real.pi / 180)) (q * (Real.pi / 180)) 0 := by
    intro p q
    refine ((((hasDerivAt_id (0 : ℝ)).mul_const q).const_add p).mul_const (Real.pi / 180)).congr_deriv ?_
    simp
  have lineh : HasDerivAt (fun t : ℝ => x 2 + t * x 5) (x 5) 0 := by
    refine (((hasDerivAt_id (0 : ℝ)).mul_const (x 5)).const_add (x 2)).congr_deriv ?_
    simp
  have e0 : ∀ p q : ℝ, (p + 0 * q) * (Real.pi / 180) = p * (Real.pi / 180) := by intros; ring
  have la := line (x 0) (x 3)
  have lo := line (x 1) (x 4)
  have n := (hasDeriv_nn ha hb ((x 0 + 0 * x 3) * (Real.pi / 180))).comp 0 la
  have hw := (ww_pos ha hb (x 0 * (Real.pi / 180))).ne'
  have hwd : ww a b (x 0 * (Real.pi / 180)) = 1 - (a * a - b * b) / (a * a) * Real.sin (x 0 * (Real.pi / 180)) ^ 2 := by
    rw [ww]; ring
  have hcs := Real.sin_sq_add_cos_sq (x 0 * (Real.pi / 180))
  have k1 : ∀ N e s c w : ℝ, w ≠ 0 → w = 1 - e * s ^ 2 → s ^ 2 + c ^ 2 = 1 →
      N * e * s * c / w * c - N * s = -(N * (1 - e) / w) * s := by
    intro N e s c w h0 h1 h2
    field_simp
    rw [h1]
    linear_combination (N * s * e) * h2
  have k2 : ∀ N e s c w : ℝ, w ≠ 0 → w = 1 - e * s ^ 2 →
      N * e * s * c / w * (1 - e) * s + N * (1 - e) * c = N * (1 - e) / w * c := by
    intro N e s c w h0 h1
    field_simp
    rw [h1]
    ring
  have k1 := k1 (nn a b (x 0 * (Real.pi / 180))) ((a * a - b * b) / (a * a)) _ _ _ hw hwd hcs
  have k2 := k2 (nn a b (x 0 * (Real.pi / 180))) ((a * a - b * b) / (a * a)) (Real.sin (x 0 * (Real.pi / 180)))
    (Real.cos (x 0 * (Real.pi / 180))) _ hw hwd
  refine hasDerivAt_pi.2 fun i => ?_
  fin_cases i
  · have := ((n.fun_add lineh).fun_mul la.cos).fun_mul lo.cos
    refine (this.congr_of_eventuallyEq (Filter.Eventually.of_forall fun t => ?_)).congr_deriv ?_
    · show place a b _ _ _ 0 = _
      rw [place_eq ha hb]; rfl
    · simp only [Function.comp_apply, e0, zero_mul, add_zero]
      show _ = velOf a b x 0
      simp only [velOf, Matrix.cons_val]
      linear_combination (x 3 * (Real.pi / 180) * Real.cos (x 1 * (Real.pi / 180))) * k1
  · have := ((n.fun_add lineh).fun_mul la.cos).fun_mul lo.sin
    refine (this.congr_of_eventuallyEq (Filter.Eventually.of_forall fun t => ?_)).congr_deriv ?_
    · show place a b _ _ _ 1 = _
      rw [place_eq ha hb]; rfl
    · simp only [Function.comp_apply, e0, zero_mul, add_zero]
      show _ = velOf a b x 1
      simp only [velOf, Matrix.cons_val]
      linear_combination (x 3 * (Real.pi / 180) * Real.sin (x 1 * (Real.pi / 180))) * k1
  · have := ((n.mul_const (1 - (a * a - b * b) / (a * a))).fun_add lineh).fun_mul la.sin
    refine (this.congr_of_eventuallyEq (Filter.Eventually.of_forall fun t => ?_)).congr_deriv ?_
    · show place a b _ _ _ 2 = _
      rw [place_eq ha hb]; rfl
    · simp only [Function.comp_apply, e0, zero_mul, add_zero]
      show _ = velOf a b x 2
      simp only [velOf, Matrix.cons_val]
      linear_combination (x 3 * (Real.pi / 180)) * k2

/-! ### The numbers of the code -/

theorem tr_scale {n : ℕ} {x : Fin n → ℝ} {f : (Fin n → ℝ) → ℝ} {d : Dual n} (h : Tracks x f d) (c : ℝ) :
    Tracks x (fun y => f y * c) (dscale d c) := by
  have hg : HasDerivAt (fun t : ℝ => t * c) c (f x) := by simpa using (hasDerivAt_id (f x)).mul_const c
  have := Gravity.Tracks_comp h hg
  refine ⟨by rw [dscale, h.1], ?_⟩
  have e : (fun j => c * d.eps j) = (dscale d c).eps := funext fun j => mul_comm _ _
  rw [← e]
  exact this.2

theorem tr_neg {n : ℕ} {x : Fin n → ℝ} {f : (Fin n → ℝ) → ℝ} {d : Dual n} (h : Tracks x f d) :
    Tracks x (fun y => -f y) (dneg d) := by
  have hg : HasDerivAt (fun t : ℝ => -t) (-1) (f x) := (hasDerivAt_id (f x)).fun_neg
  have := Gravity.Tracks_comp h hg
  refine ⟨by rw [dneg, h.1], ?_⟩
  have e : (fun j => -1 * d.eps j) = (dneg d).eps := funext fun j => neg_one_mul _
  rw [← e]
  exact this.2

theorem tr_sin {n : ℕ} {x : Fin n → ℝ} {f : (Fin n → ℝ) → ℝ} {d : Dual n} (h : Tracks x f d) :
    Tracks x (fun y => Real.sin (f y)) (dsin d) := by
  have := Gravity.Tracks_comp h (Real.hasDerivAt_sin (f x))
  rw [← h.1] at this
  exact this

theorem tr_cos {n : ℕ} {x : Fin n → ℝ} {f : (Fin n → ℝ) → ℝ} {d : Dual n} (h : Tracks x f d) :
    Tracks x (fun y => Real.cos (f y)) (dcos d) := by
  have := Gravity.Tracks_comp h (Real.hasDerivAt_cos (f x))
  rw [← h.1] at this
  exact this

theorem cartesian_tracks (ha : 0 < a) (hb : 0 < b) (x : Fin 6 → ℝ) (i : Fin 6) :
    Tracks x (fun y => stack (placeOf a b y) (velOf a b y) i) (cartesian a b x i) := by
  have la := tr_scale (Tracks.var (x := x) 0) (Real.pi / 180)
  have lo := tr_scale (Tracks.var (x := x) 1) (Real.pi / 180)
  have al := Tracks.var (x := x) 2
  have laR := tr_scale (Tracks.var (x := x) 3) (Real.pi / 180)
  have loR := tr_scale (Tracks.var (x := x) 4) (Real.pi / 180)
  have alR := Tracks.var (x := x) 5
  have w := (Tracks.ofReal (x := x) 1).sub (((Tracks.ofReal (x := x) ((a * a - b * b) / (a * a))).mul (tr_sin la)).mul (tr_sin la))
  have hw := ww_pos ha hb (x 0 * (Real.pi / 180))
  have n := (Tracks.ofReal (x := x) a).div (w.sqrt hw.ne') (Real.sqrt_pos.2 hw).ne'
  have ob := Tracks.ofReal (x := x) (1 - (a * a - b * b) / (a * a))
  have m := (n.mul ob).div w hw.ne'
  fin_cases i
  · refine (((n.add al).mul (tr_cos la)).mul (tr_cos lo)).congr fun y => ?_
    simp only [stack, placeOf, place_eq ha hb]; rfl
  · refine (((n.add al).mul (tr_cos la)).mul (tr_sin lo)).congr fun y => ?_
    simp only [stack, placeOf, place_eq ha hb]; rfl
  · refine (((n.mul ob).add al).mul (tr_sin la)).congr fun y => ?_
    simp only [stack, placeOf, place_eq ha hb]; rfl
  · exact (((((tr_neg (m.add al)).mul (tr_sin la)).mul (tr_cos lo)).mul laR).add
      ((((tr_neg (n.add al)).mul (tr_cos la)).mul (tr_sin lo)).mul loR)).add (((tr_cos la).mul (tr_cos lo)).mul alR)
  · exact (((((tr_neg (m.add al)).mul (tr_sin la)).mul (tr_sin lo)).mul laR).add
      ((((n.add al).mul (tr_cos la)).mul (tr_cos lo)).mul loR)).add (((tr_cos la).mul (tr_sin lo)).mul alR)
  · exact ((((m.mul (tr_cos la)).add (al.mul (tr_cos la))).mul laR).add ((Tracks.ofReal (x := x) 0).mul loR)).add
      ((tr_sin la).mul alR)

end Proof

example (lat lon : ℝ) := place_ground (a := 6378) (b := 6357) lat lon (by norm_num) (by norm_num)

example (lat lon : ℝ) := place_normal (a := 6378) (b := 6357) lat lon (by norm_num) (by norm_num)

end Verif.Ground
