import Verif.Ground.Geodesy
import Verif.MathU.Angles
import Mathlib.Geometry.Euclidean.Angle.Unoriented.TriangleInequality
/-!
# Theorems on the coordinates of ground assets
-/
namespace Verif.Ground
open Verif.Force
open Verif.MathU (V3 nrm atan2)
open Verif.Mc (Out)

variable {Fr : Type}

/-- The conversions of ANISE are right for an asset: the orbit is at the place of the coordinates, and
the coordinates of that orbit are those of the asset (the longitude up to full turns). -/
structure Faithful (g : Geo Fr) (x : Asset ℝ Fr) (a b : ℝ) : Prop where
  shape : g.shape x.frame = some (a, b)
  orbit : ∃ v, g.orbit x.lat x.lon x.height x.epoch x.frame = some (place a b x.lat x.lon x.height, v)
  geodetic : ∀ v, ∃ lon, g.geodetic (place a b x.lat x.lon x.height, v) x.epoch x.frame = some (x.lat, lon, x.height)

/-- C173. The matrix returned for an asset is the derivative of its cartesian state (place and velocity) with
respect to its six variables, and that velocity is the derivative of the place when the coordinates follow
the rates; the only error is a frame without a shape. -/
theorem jacobian_derivative (g : Geo Fr) (x : Asset ℝ Fr) (a b : ℝ) (hs : g.shape x.frame = some (a, b)) (ha : 0 < a)
    (hb : 0 < b) : ∃ J, x.jacobian g = some J ∧
      ∀ V, IsVelocity a b V → HasFDerivAt (fun y => stack (placeOf a b y) (V y)) (linM J) x.vars := by
  refine ⟨_, by rw [Asset.jacobian, hs]; rfl, fun V hV => ?_⟩
  have e : V = velOf a b := funext fun y => (hV y).unique (velOf_velocity ha hb y)
  rw [e]
  exact (Tracks.vector (cartesian_tracks ha hb x.vars)).2

/-- C173. There is such a velocity, and it depends on the place and rates only. -/
theorem velocity_exists {a b : ℝ} (ha : 0 < a) (hb : 0 < b) : ∃! V, IsVelocity a b V :=
  ⟨_, velOf_velocity ha hb, fun _ hV => funext fun y => (hV y).unique (velOf_velocity ha hb y)⟩

/-- C173. Without the shape of the body there is no matrix. -/
theorem jacobian_shapeless (g : Geo Fr) (x : Asset ℝ Fr) (hs : g.shape x.frame = none) : x.jacobian g = none := by
  rw [Asset.jacobian, hs]; rfl

/-! ### South, east and zenith -/

theorem curvN_eq (a b lat : ℝ) : curvN a b lat = nn a b (lat * (Real.pi / 180)) := by
  rw [curvN, nn, ww, rad]
  congr 2
  ring

theorem curvM_eq {a b : ℝ} (ha : 0 < a) (hb : 0 < b) (lat : ℝ) :
    curvM a b lat = nn a b (lat * (Real.pi / 180)) * (1 - (a * a - b * b) / (a * a)) / ww a b (lat * (Real.pi / 180)) := by
  have hw := ww_pos ha hb (lat * (Real.pi / 180))
  have e : 1 - (a ^ 2 - b ^ 2) / a ^ 2 * Real.sin (rad lat) ^ 2 = ww a b (lat * (Real.pi / 180)) := by
    rw [ww, rad]; ring
  rw [curvM, e, nn]
  have hp : ww a b (lat * (Real.pi / 180)) ^ (1.5 : ℝ) = ww a b (lat * (Real.pi / 180)) * Real.sqrt (ww a b (lat * (Real.pi / 180))) := by
    rw [Real.sqrt_eq_rpow, ← Real.rpow_one_add' hw.le (by norm_num)]
    norm_num
  rw [hp]
  have hs := Real.sqrt_pos.2 hw
  field_simp

theorem velocity_value {g : Geo Fr} {x : Asset ℝ Fr} {a b : ℝ} (hf : Faithful g x a b) :
    x.velocity g = some ((1000 : ℝ) • ![-rad x.latRate * (curvM a b x.lat + x.height),
      rad x.lonRate * (curvN a b x.lat + x.height) * Real.cos (rad x.lat), x.heightRate]) := by
  obtain ⟨v, hv⟩ := hf.orbit
  obtain ⟨lon, hl⟩ := hf.geodetic v
  simp only [Asset.velocity, hv, Option.bind_some, velocitySez, hl, hf.shape, Option.map_some]

/-- C174. The velocity reported for an asset is, in meters per second, the velocity of its place along south,
east and zenith. -/
theorem velocity_sez (g : Geo Fr) (x : Asset ℝ Fr) (a b : ℝ) (hf : Faithful g x a b) (ha : 0 < a) (hb : 0 < b)
    (V : (Fin 6 → ℝ) → V3) (hV : IsVelocity a b V) : ∃ s, x.velocity g = some s ∧
      s 0 = 1000 * (V x.vars ⬝ᵥ south x.lat x.lon) ∧ s 1 = 1000 * (V x.vars ⬝ᵥ east x.lon) ∧
      s 2 = 1000 * (V x.vars ⬝ᵥ up x.lat x.lon) := by
  have e : V = velOf a b := funext fun y => (hV y).unique (velOf_velocity ha hb y)
  refine ⟨_, velocity_value hf, ?_⟩
  rw [e, curvM_eq ha hb, curvN_eq]
  simp only [velOf, south, east, up, dotProduct, Fin.sum_univ_three, Matrix.cons_val, Asset.vars, Pi.smul_apply, smul_eq_mul, rad]
  have h1 := Real.sin_sq_add_cos_sq (x.lat * (Real.pi / 180))
  have h2 := Real.sin_sq_add_cos_sq (x.lon * (Real.pi / 180))
  generalize nn a b (x.lat * (Real.pi / 180)) * (1 - (a * a - b * b) / (a * a)) / ww a b (x.lat * (Real.pi / 180)) = m
  generalize nn a b (x.lat * (Real.pi / 180)) = n
  generalize Real.sin (x.lat * (Real.pi / 180)) = s at *
  generalize Real.cos (x.lat * (Real.pi / 180)) = c at *
  generalize Real.sin (x.lon * (Real.pi / 180)) = sl at *
  generalize Real.cos (x.lon * (Real.pi / 180)) = cl at *
  generalize Real.pi / 180 = k
  refine ⟨?_, ?_, ?_⟩
  · linear_combination (1000 * (m + x.height) * x.latRate * k) * h1 +
      (1000 * (m + x.height) * x.latRate * k * s ^ 2 - 1000 * c * s * x.heightRate) * h2
  · linear_combination (-1000 * (n + x.height) * x.lonRate * k * c) * h2
  · linear_combination (-1000 * x.heightRate) * h1 + (-1000 * c ^ 2 * x.heightRate + 1000 * (m + x.height) * x.latRate * k * s * c) * h2

/-- A vector is the sum of its components along south, east and up. -/
theorem mul_smul_basis (k : ℝ) (W : V3) (lat lon : ℝ) :
    k • W = (k * (W ⬝ᵥ south lat lon)) • south lat lon + (k * (W ⬝ᵥ east lon)) • east lon + (k * (W ⬝ᵥ up lat lon)) • up lat lon := by
  have h1 := Real.sin_sq_add_cos_sq (lat * (Real.pi / 180))
  have h2 := Real.sin_sq_add_cos_sq (lon * (Real.pi / 180))
  funext i
  fin_cases i <;>
    simp only [south, east, up, dotProduct, Fin.sum_univ_three, Pi.add_apply, Pi.smul_apply, smul_eq_mul, Fin.zero_eta, Fin.mk_one,
      Fin.reduceFinMk, Matrix.cons_val]
  all_goals
    generalize Real.sin (lat * (Real.pi / 180)) = s at *
    generalize Real.cos (lat * (Real.pi / 180)) = c at *
    generalize Real.sin (lon * (Real.pi / 180)) = sl at *
    generalize Real.cos (lon * (Real.pi / 180)) = cl at *
  · linear_combination (-k * (W 0 * cl ^ 2 + W 1 * cl * sl)) * h1 - k * W 0 * h2
  · linear_combination (-k * (W 1 * sl ^ 2 + W 0 * cl * sl)) * h1 - k * W 1 * h2
  · linear_combination (-k * W 2) * h1

/-- Not at a pole (up to the threshold of the code) and not below the ellipsoid. -/
def Regular (x : Asset ℝ Fr) : Prop :=
  1 / 10 ^ 10 < |Real.cos (x.lat * (Real.pi / 180))| ∧ 0 ≤ x.height

theorem curvM_pos {a b : ℝ} (ha : 0 < a) (hb : 0 < b) (lat : ℝ) : 0 < curvM a b lat := by
  rw [curvM_eq ha hb, nn_b ha hb]
  have := ww_pos ha hb (lat * (Real.pi / 180))
  have := Real.sqrt_pos.2 (root_pos ha hb (lat * (Real.pi / 180)))
  positivity

theorem curvN_pos {a b : ℝ} (ha : 0 < a) (hb : 0 < b) (lat : ℝ) : 0 < curvN a b lat := by
  rw [curvN_eq, nn_eq ha hb]
  have := Real.sqrt_pos.2 (root_pos ha hb (lat * (Real.pi / 180)))
  positivity

theorem rad_deg (r : ℝ) : rad (deg r) = r := by
  rw [rad, deg]
  have := Real.pi_pos.ne'
  field_simp

theorem withVelocity_value {g : Geo Fr} {x : Asset ℝ Fr} {a b : ℝ} (hf : Faithful g x a b) (v : V3) :
    x.withVelocity g v = .ok ⟨x.lat, x.lon, x.height, deg (-(1 / 1000 * v 0) / (curvM a b x.lat + x.height)),
      deg (if |Real.cos (rad x.lat)| > 1 / 10 ^ 10 then 1 / 1000 * v 1 / ((curvN a b x.lat + x.height) * Real.cos (rad x.lat)) else 0),
      1 / 1000 * v 2, x.epoch, x.frame, x.stm⟩ := by
  obtain ⟨w, hv⟩ := hf.orbit
  obtain ⟨lon, hl⟩ := hf.geodetic w
  simp only [Asset.withVelocity, Asset.orbit, hv, Option.elim_some, Out.bind, latlongaltRate, hl, hf.shape, Option.bind_some,
    Option.map_some, Pi.smul_apply, smul_eq_mul]

/-- C174, away from the poles and at a height that is not negative. An asset given a velocity keeps its place,
epoch, frame and matrix, and it has that velocity: the place moves along south, east and zenith as asked.
Missing: the poles, where the claim is false (`pole_stops`). -/
theorem withVelocity_partial (g : Geo Fr) (x : Asset ℝ Fr) (a b : ℝ) (hf : Faithful g x a b) (ha : 0 < a) (hb : 0 < b)
    (hr : Regular x) (v : V3) (V : (Fin 6 → ℝ) → V3) (hV : IsVelocity a b V) : ∃ y, x.withVelocity g v = .ok y ∧
      (y.lat, y.lon, y.height, y.epoch, y.frame, y.stm) = (x.lat, x.lon, x.height, x.epoch, x.frame, x.stm) ∧
      y.velocity g = some v ∧
      (1000 : ℝ) • V y.vars = v 0 • south x.lat x.lon + v 1 • east x.lon + v 2 • up x.lat x.lon := by
  refine ⟨_, withVelocity_value hf v, rfl, ?_⟩
  have hf' : Faithful g (⟨x.lat, x.lon, x.height, deg (-(1 / 1000 * v 0) / (curvM a b x.lat + x.height)),
      deg (if |Real.cos (rad x.lat)| > 1 / 10 ^ 10 then 1 / 1000 * v 1 / ((curvN a b x.lat + x.height) * Real.cos (rad x.lat)) else 0),
      1 / 1000 * v 2, x.epoch, x.frame, x.stm⟩ : Asset ℝ Fr) a b := ⟨hf.shape, hf.orbit, hf.geodetic⟩
  have hc : |Real.cos (rad x.lat)| > 1 / 10 ^ 10 := hr.1
  have hc0 : Real.cos (rad x.lat) ≠ 0 := by
    intro h0
    rw [h0, abs_zero] at hc
    norm_num at hc
  have hM : curvM a b x.lat + x.height ≠ 0 := (add_pos_of_pos_of_nonneg (curvM_pos ha hb _) hr.2).ne'
  have hN : curvN a b x.lat + x.height ≠ 0 := (add_pos_of_pos_of_nonneg (curvN_pos ha hb _) hr.2).ne'
  have hval := velocity_value hf'
  simp only [rad_deg, if_pos hc] at hval
  have hv : (1000 : ℝ) • ![-(-(1 / 1000 * v 0) / (curvM a b x.lat + x.height)) * (curvM a b x.lat + x.height),
      1 / 1000 * v 1 / ((curvN a b x.lat + x.height) * Real.cos (rad x.lat)) * (curvN a b x.lat + x.height) *
        Real.cos (rad x.lat), 1 / 1000 * v 2] = v := by
    funext i
    fin_cases i <;> simp <;> field_simp
  rw [hv] at hval
  refine ⟨by simp only [if_pos hc]; exact hval, ?_⟩
  obtain ⟨s, hs, s0, s1, s2⟩ := velocity_sez g _ a b hf' ha hb V hV
  simp only [if_pos hc] at hs s0 s1 s2 ⊢
  rw [hval] at hs
  cases hs
  refine (mul_smul_basis 1000 _ x.lat x.lon).trans ?_
  rw [← s0, ← s1, ← s2]

/-- C174 is false at a pole: an asset asked to move to the east there does not. -/
theorem pole_stops (g : Geo Fr) (x : Asset ℝ Fr) (a b : ℝ) (hf : Faithful g x a b) (hp : x.lat = 90) (v : V3)
    (hv : v 1 ≠ 0) : ∃ y s, x.withVelocity g v = .ok y ∧ y.velocity g = some s ∧ s 1 = 0 ∧ s ≠ v := by
  have hf' : ∀ r1 r2 r3, Faithful g (⟨x.lat, x.lon, x.height, r1, r2, r3, x.epoch, x.frame, x.stm⟩ : Asset ℝ Fr) a b :=
    fun _ _ _ => ⟨hf.shape, hf.orbit, hf.geodetic⟩
  refine ⟨_, _, withVelocity_value hf v, velocity_value (hf' _ _ _), ?_⟩
  have hc : Real.cos (rad x.lat) = 0 := by
    rw [hp, rad, show (90 : ℝ) * (Real.pi / 180) = Real.pi / 2 by ring, Real.cos_pi_div_two]
  have h0 : ∀ p q r : ℝ, ((1000 : ℝ) • ![p, q * Real.cos (rad x.lat), r]) 1 = 0 := by
    intro p q r; simp [hc]
  refine ⟨h0 _ _ _, fun he => hv ?_⟩
  rw [← he]
  exact h0 _ _ _

/-! ### Great circles -/

/-- A vector in the euclidean space. -/
noncomputable def eu (v : V3) : EuclideanSpace ℝ (Fin 3) := WithLp.toLp 2 v

theorem eu_norm (lat lon : ℝ) : ‖eu (up lat lon)‖ = 1 := by
  have h := up_unit lat lon
  unfold nrm at h
  rw [Real.sqrt_eq_one] at h
  rw [EuclideanSpace.norm_eq, Real.sqrt_eq_one]
  simp only [dotProduct, Fin.sum_univ_three, eu, Real.norm_eq_abs, sq_abs] at h ⊢
  linear_combination h

/-- The haversine from the cosine of the angle. -/
theorem haversine_eq (p q r s : ℝ) :
    haversine p q r s = (1 - up p q ⬝ᵥ up r s) / 2 := by
  have e : ∀ t : ℝ, Real.sin (t / 2) ^ 2 = (1 - Real.cos t) / 2 := by
    intro t
    rw [Real.sin_sq_eq_half_sub, show 2 * (t / 2) = t by ring]; ring
  rw [haversine, e, e, Real.cos_sub, Real.cos_sub]
  simp only [up, dotProduct, Fin.sum_univ_three, Matrix.cons_val, rad]
  ring

theorem atan2_half (u : ℝ) (h1 : -1 ≤ u) (h2 : u ≤ 1) :
    2 * atan2 (Real.sqrt ((1 - u) / 2)) (Real.sqrt (1 - (1 - u) / 2)) = Real.arccos u := by
  have hθ0 := Real.arccos_nonneg u
  have hθ1 := Real.arccos_le_pi u
  have hpi := Real.pi_pos
  set θ := Real.arccos u
  have hu : u = Real.cos θ := (Real.cos_arccos h1 h2).symm
  have es : Real.sqrt ((1 - u) / 2) = 1 * Real.sin (θ / 2) := by
    rw [one_mul, Real.sin_half_eq_sqrt hθ0 (by linarith), hu]
  have ec : Real.sqrt (1 - (1 - u) / 2) = 1 * Real.cos (θ / 2) := by
    rw [one_mul, Real.cos_half (by linarith) hθ1, hu]; congr 1; ring
  rw [es, ec, Verif.MathU.atan2_of_polar 1 (θ / 2) one_pos (by linarith) (by linarith)]
  ring

/-- C175. The distance is the equatorial radius times the angle between the directions up of both assets,
whatever their latitudes and longitudes. -/
theorem great_circle (g : Geo Fr) (x y : Asset ℝ Fr) (a b : ℝ) (hs : g.shape x.frame = some (a, b)) :
    x.greatCircle g y = some (a * InnerProductGeometry.angle (eu (up x.lat x.lon)) (eu (up y.lat y.lon))) := by
  have hi : inner ℝ (eu (up x.lat x.lon)) (eu (up y.lat y.lon)) = up x.lat x.lon ⬝ᵥ up y.lat y.lon := by
    rw [EuclideanSpace.inner_eq_star_dotProduct]
    simp [eu, dotProduct_comm]
  have hb := abs_le.1 (abs_real_inner_le_norm (eu (up x.lat x.lon)) (eu (up y.lat y.lon)))
  rw [eu_norm, eu_norm, hi] at hb
  rw [Asset.greatCircle, hs, Option.map_some, haversine_eq, atan2_half _ (by linarith [hb.1]) (by linarith [hb.2]),
    InnerProductGeometry.angle, eu_norm, eu_norm, hi]
  norm_num

/-- C175. It is a distance between directions on the sphere with that radius: symmetric, with the triangle
inequality, at most half a turn, and zero only between assets in the same direction. -/
theorem great_circle_metric (g : Geo Fr) (x y z : Asset ℝ Fr) (a b : ℝ) (ha : 0 < a) (hs : g.shape x.frame = some (a, b))
    (hy : y.frame = x.frame) : ∃ xy yz xz, x.greatCircle g y = some xy ∧ y.greatCircle g z = some yz ∧ x.greatCircle g z = some xz ∧
      y.greatCircle g x = some xy ∧ xz ≤ xy + yz ∧ 0 ≤ xy ∧ xy ≤ a * Real.pi ∧ (xy = 0 ↔ up x.lat x.lon = up y.lat y.lon) := by
  have hs' : g.shape y.frame = some (a, b) := by rw [hy]; exact hs
  refine ⟨_, _, _, great_circle g x y a b hs, great_circle g y z a b hs', great_circle g x z a b hs, ?_, ?_, ?_, ?_, ?_⟩
  · rw [great_circle g y x a b hs', InnerProductGeometry.angle_comm]
  · rw [← mul_add]
    exact mul_le_mul_of_nonneg_left (InnerProductGeometry.angle_le_angle_add_angle _ _ _) ha.le
  · exact mul_nonneg ha.le (InnerProductGeometry.angle_nonneg _ _)
  · exact mul_le_mul_of_nonneg_left (InnerProductGeometry.angle_le_pi _ _) ha.le
  · rw [mul_eq_zero, or_iff_right ha.ne']
    constructor
    · intro h
      obtain ⟨-, r, hr, e⟩ := InnerProductGeometry.angle_eq_zero_iff.1 h
      have hn := congrArg norm e
      rw [norm_smul, eu_norm, eu_norm, mul_one, Real.norm_eq_abs, abs_of_pos hr] at hn
      rw [← hn, one_smul] at e
      exact ((WithLp.toLp_injective 2) e).symm
    · intro h
      rw [h]
      exact InnerProductGeometry.angle_self (by rw [← norm_ne_zero_iff, eu_norm]; exact one_ne_zero)

/-! ### The hypotheses are met -/

/-- A body with the radii 2 and 1 (any asset), whose conversions are right at the coordinates asked for. -/
noncomputable def geo21 (lat lon h : ℝ) : Geo Unit :=
  ⟨fun _ => some (2, 1), fun la lo he _ _ => some (place 2 1 la lo he, 0), fun _ _ _ => some (lat, lon, h)⟩

theorem geo21_faithful (x : Asset ℝ Unit) : Faithful (geo21 x.lat x.lon x.height) x 2 1 :=
  ⟨rfl, ⟨0, rfl⟩, fun _ => ⟨x.lon, rfl⟩⟩

/-- An asset on the equator. -/
noncomputable def onEquator : Asset ℝ Unit := ⟨0, 30, 1, 0, 0, 0, 0, (), none⟩

noncomputable example := jacobian_derivative (geo21 0 30 1) onEquator 2 1 rfl two_pos one_pos
noncomputable example := velocity_sez (geo21 0 30 1) onEquator 2 1 (geo21_faithful onEquator) two_pos one_pos _
  (velOf_velocity two_pos one_pos)

noncomputable example (v : V3) := withVelocity_partial (geo21 0 30 1) onEquator 2 1 (geo21_faithful onEquator) two_pos one_pos
  ⟨by simp [onEquator]; norm_num, by simp [onEquator]⟩ v _ (velOf_velocity two_pos one_pos)

/-- An asset at the north pole. -/
noncomputable def atPole : Asset ℝ Unit := ⟨90, 30, 1, 0, 0, 0, 0, (), none⟩

noncomputable example := pole_stops (geo21 90 30 1) atPole 2 1 (geo21_faithful atPole) rfl ![0, 5, 0] (by simp)
noncomputable example := great_circle_metric (geo21 0 0 0) onEquator atPole onEquator 2 1 two_pos rfl rfl

example : ∃! V, IsVelocity 6378 6357 V := velocity_exists (by norm_num) (by norm_num)

example (x : Asset ℝ Unit) := jacobian_shapeless ⟨fun _ => none, fun _ _ _ _ _ => none, fun _ _ _ => none⟩ x rfl

end Verif.Ground
