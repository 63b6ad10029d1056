import Verif.MathU.Angles
import Verif.Guide.Modes
/-!
The laws steer each element towards its target, as fast as any thrust direction can: Gauss's variational
equations are the specification. Where this is false of the code there is a counterexample.
-/
namespace Verif.Guide
open Matrix
open Verif.MathU (V3 nrm atan2 vecOfPlane dot3)
open Verif.Spacecraft (Mode)
open Verif.Target (Param Objective)
open Verif.Mc (Out)

/-- The specific angular momentum. -/
noncomputable def Sat.hmag (s : Sat) : ℝ := Real.sqrt (s.mu * s.semiParam)

/-- Gauss's variational equations: the rate of an element under the acceleration `a`, in the RCN frame (radial,
along track, normal). The equinoctial elements are `H = e sin(ω+Ω)`, `K = e cos(ω+Ω)`, `P = tan(i/2) sin Ω`,
`Q = tan(i/2) cos Ω`, as kluever.rs says. The mean longitude does not depend on the thrust at once. -/
noncomputable def rate (p : Elem) (s : Sat) (a : V3) : ℝ :=
  let ν := rad s.ta
  let u := rad s.ta + rad s.aop
  let i := rad s.inc
  let w := 1 + s.equiH * Real.sin s.lon + s.equiK * Real.cos s.lon
  let z := s.equiQ * Real.sin s.lon - s.equiP * Real.cos s.lon
  match p with
  | .sma => 2 * s.sma ^ 2 / s.hmag * (s.ecc * Real.sin ν * a 0 + s.semiParam / s.rmag * a 1)
  | .ecc => 1 / s.hmag * (s.semiParam * Real.sin ν * a 0 +
      ((s.semiParam + s.rmag) * Real.cos ν + s.rmag * s.ecc) * a 1)
  | .inc => s.rmag * Real.cos u / s.hmag * a 2
  | .raan => s.rmag * Real.sin u / (s.hmag * Real.sin i) * a 2
  | .aop => 1 / (s.hmag * s.ecc) * (-s.semiParam * Real.cos ν * a 0 +
      (s.semiParam + s.rmag) * Real.sin ν * a 1) - s.rmag * Real.sin u * Real.cos i / (s.hmag * Real.sin i) * a 2
  | .equiH => s.semiParam / s.hmag * (-Real.cos s.lon * a 0 +
      ((w + 1) * Real.sin s.lon + s.equiH) / w * a 1 + z * s.equiK / w * a 2)
  | .equiK => s.semiParam / s.hmag * (Real.sin s.lon * a 0 +
      ((w + 1) * Real.cos s.lon + s.equiK) / w * a 1 - z * s.equiH / w * a 2)
  | .equiP => s.semiParam / s.hmag * ((1 + s.equiP ^ 2 + s.equiQ ^ 2) / (2 * w)) * Real.sin s.lon * a 2
  | .equiQ => s.semiParam / s.hmag * ((1 + s.equiP ^ 2 + s.equiQ ^ 2) / (2 * w)) * Real.cos s.lon * a 2
  | _ => 0

/-- `d` is a unit vector along which the element grows at least as fast as along any other. -/
def Best (p : Elem) (s : Sat) (d : V3) : Prop := d ⬝ᵥ d = 1 ∧ ∀ a : V3, a ⬝ᵥ a = 1 → rate p s a ≤ rate p s d

theorem rate_smul (p : Elem) (s : Sat) (c : ℝ) (a : V3) : rate p s (c • a) = c * rate p s a := by
  cases p <;> simp only [rate, Pi.smul_apply, smul_eq_mul] <;> ring

theorem rate_neg (p : Elem) (s : Sat) (a : V3) : rate p s (-a) = -rate p s a := by
  rw [show -a = (-1 : ℝ) • a by simp, rate_smul]; ring

theorem Best.nonneg {p : Elem} {s : Sat} {d : V3} (h : Best p s d) : 0 ≤ rate p s d := by
  have := h.2 (-d) (by rw [neg_dotProduct_neg]; exact h.1)
  rw [rate_neg] at this
  linarith

theorem Best.abs {p : Elem} {s : Sat} {d : V3} (h : Best p s d) (a : V3) (ha : a ⬝ᵥ a = 1) :
    |rate p s a| ≤ rate p s d := by
  refine abs_le.2 ⟨?_, h.2 a ha⟩
  have := h.2 (-a) (by rw [neg_dotProduct_neg]; exact ha)
  rw [rate_neg] at this
  linarith

theorem Kepler.semi_pos {s : Sat} (k : Kepler s) : 0 < s.semiParam := by
  have h0 := k.e0
  have h1 := k.e1
  rw [k.semi]
  exact mul_pos k.sma (by nlinarith)

theorem Kepler.hmag_pos {s : Sat} (k : Kepler s) : 0 < s.hmag := Real.sqrt_pos.2 (mul_pos k.mu k.semi_pos)

theorem Kepler.rmag_pos {s : Sat} (k : Kepler s) : 0 < s.rmag := by rw [k.conic]; exact div_pos k.semi_pos k.den

theorem Kepler.ratio {s : Sat} (k : Kepler s) : s.semiParam / s.rmag = 1 + s.ecc * Real.cos (rad s.ta) := by
  have := k.semi_pos
  have := k.den
  rw [k.conic]
  field_simp

/-! ### Vectors from angles -/

theorem plane0 (α : ℝ) : vecOfPlane α 0 0 = Real.sin α ∧ vecOfPlane α 0 1 = Real.cos α ∧ vecOfPlane α 0 2 = 0 := by
  simp [vecOfPlane]

theorem planeHalf (x : ℝ) : vecOfPlane 0 (halfPi x) 0 = 0 ∧ vecOfPlane 0 (halfPi x) 1 = 0 ∧
    vecOfPlane 0 (halfPi x) 2 = if 0 ≤ x then 1 else -1 := by
  unfold halfPi
  by_cases h : 0 ≤ x <;> simp [vecOfPlane, h]

theorem plane_unit (α β : ℝ) : vecOfPlane α β ⬝ᵥ vecOfPlane α β = 1 := by
  rw [dot3]
  show (Real.sin α * Real.cos β) * (Real.sin α * Real.cos β) + (Real.cos α * Real.cos β) * (Real.cos α * Real.cos β) +
    Real.sin β * Real.sin β = 1
  have h1 := Real.sin_sq_add_cos_sq α
  have h2 := Real.sin_sq_add_cos_sq β
  have : (Real.sin α ^ 2 + Real.cos α ^ 2) * Real.cos β ^ 2 + Real.sin β ^ 2 = 1 := by rw [h1]; linarith
  nlinarith

/-- A linear form in the plane of the orbit is largest along the direction of its coefficients. -/
theorem inplane_max (k y x : ℝ) (hk : 0 ≤ k) (a : V3) (ha : a ⬝ᵥ a = 1) :
    k * (y * a 0 + x * a 1) ≤ k * (y * vecOfPlane (atan2 y x) 0 0 + x * vecOfPlane (atan2 y x) 0 1) ∧
    k * (y * vecOfPlane (atan2 y x) 0 0 + x * vecOfPlane (atan2 y x) 0 1) = k * Real.sqrt (x * x + y * y) := by
  obtain ⟨h0, h1, _⟩ := plane0 (atan2 y x)
  obtain ⟨p1, p2⟩ := Verif.MathU.atan2_polar y x
  rw [h0, h1]
  set ρ := Real.sqrt (x * x + y * y) with hρ
  have hr0 : 0 ≤ ρ := Real.sqrt_nonneg _
  have hr2 : ρ * ρ = x * x + y * y := Real.mul_self_sqrt (by nlinarith [mul_self_nonneg x, mul_self_nonneg y])
  have heq : y * Real.sin (atan2 y x) + x * Real.cos (atan2 y x) = ρ := by
    have hsc := Real.sin_sq_add_cos_sq (atan2 y x)
    calc y * Real.sin (atan2 y x) + x * Real.cos (atan2 y x)
        = (ρ * Real.sin (atan2 y x)) * Real.sin (atan2 y x) + (ρ * Real.cos (atan2 y x)) * Real.cos (atan2 y x) := by
          rw [p1, p2]
      _ = ρ * (Real.sin (atan2 y x) ^ 2 + Real.cos (atan2 y x) ^ 2) := by ring
      _ = ρ := by rw [hsc, mul_one]
  rw [heq]
  refine ⟨mul_le_mul_of_nonneg_left ?_ hk, rfl⟩
  rw [dot3] at ha
  refine (abs_le_of_sq_le_sq' ?_ hr0).2
  rw [pow_two, pow_two, hr2]
  nlinarith [sq_nonneg (y * a 1 - x * a 0), mul_self_nonneg (a 2), mul_self_nonneg x, mul_self_nonneg y,
    mul_nonneg (mul_self_nonneg (a 2)) (add_nonneg (mul_self_nonneg x) (mul_self_nonneg y))]

/-- The normal direction of the sign of the coefficient. -/
theorem normal_max (c : ℝ) (a : V3) (ha : a ⬝ᵥ a = 1) : c * a 2 ≤ |c| ∧ c * (if 0 ≤ c then 1 else -1) = |c| := by
  rw [dot3] at ha
  have h2 : |a 2| ≤ 1 := by
    rw [← sq_le_one_iff_abs_le_one]
    nlinarith [mul_self_nonneg (a 0), mul_self_nonneg (a 1)]
  constructor
  · calc c * a 2 ≤ |c * a 2| := le_abs_self _
      _ = |c| * |a 2| := abs_mul _ _
      _ ≤ |c| * 1 := mul_le_mul_of_nonneg_left h2 (abs_nonneg _)
      _ = |c| := mul_one _
  · split
    · rename_i h; rw [mul_one, abs_of_nonneg h]
    · rename_i h; rw [abs_of_neg (not_le.1 h)]; ring

/-! ### Ruggiero -/

theorem ecc_coeffs {s : Sat} (k : Kepler s) :
    (s.semiParam + s.rmag) * Real.cos (rad s.ta) + s.rmag * s.ecc =
      s.semiParam * (Real.cos (rad s.ta) + Real.cos (rad s.ea)) := by
  have := k.den
  rw [k.anomaly, k.conic]
  field_simp
  ring

theorem sma_best {s : Sat} (k : Kepler s) {d : V3} (h : steer (.element .sma) s = some d) :
    Best .sma s d ∧ 0 < rate .sma s d := by
  simp only [steer, Option.some.injEq] at h
  subst h
  have hk : 0 ≤ 2 * s.sma ^ 2 / s.hmag := div_nonneg (by positivity) k.hmag_pos.le
  refine ⟨⟨plane_unit _ _, fun a ha => ?_⟩, ?_⟩
  · simp only [rate, k.ratio]
    exact (inplane_max _ _ _ hk a ha).1
  · simp only [rate, k.ratio]
    rw [(inplane_max _ _ _ hk (vecOfPlane 0 0) (plane_unit _ _)).2]
    have hd := k.den
    refine mul_pos (div_pos (by have := k.sma; positivity) k.hmag_pos) (Real.sqrt_pos.2 ?_)
    nlinarith [mul_self_nonneg (s.ecc * Real.sin (rad s.ta))]

theorem ecc_best {s : Sat} (k : Kepler s) {d : V3} (h : steer (.element .ecc) s = some d) :
    Best .ecc s d ∧ 0 < rate .ecc s d := by
  simp only [steer, Option.some.injEq] at h
  subst h
  have hk : 0 ≤ s.semiParam / s.hmag := div_nonneg k.semi_pos.le k.hmag_pos.le
  have hform : ∀ a : V3, rate .ecc s a = s.semiParam / s.hmag *
      (Real.sin (rad s.ta) * a 0 + (Real.cos (rad s.ta) + Real.cos (rad s.ea)) * a 1) := by
    intro a
    simp only [rate, ecc_coeffs k]
    ring
  refine ⟨⟨plane_unit _ _, fun a ha => ?_⟩, ?_⟩
  · rw [hform, hform]
    exact (inplane_max _ _ _ hk a ha).1
  · rw [hform, (inplane_max _ _ _ hk (vecOfPlane 0 0) (plane_unit _ _)).2]
    refine mul_pos (div_pos k.semi_pos k.hmag_pos) (Real.sqrt_pos.2 ?_)
    by_cases hs : Real.sin (rad s.ta) = 0
    · have hc : Real.cos (rad s.ta) = 1 ∨ Real.cos (rad s.ta) = -1 := by
        have := Real.sin_sq_add_cos_sq (rad s.ta)
        rw [hs] at this
        have : Real.cos (rad s.ta) ^ 2 = 1 := by linarith
        have h2 : (Real.cos (rad s.ta) - 1) * (Real.cos (rad s.ta) + 1) = 0 := by linear_combination this
        rcases mul_eq_zero.1 h2 with h | h
        · left; linarith
        · right; linarith
      have h0 := k.e0
      have h1 := k.e1
      have hE : Real.cos (rad s.ta) + Real.cos (rad s.ea) = 2 ∨ Real.cos (rad s.ta) + Real.cos (rad s.ea) = -2 := by
        rw [k.anomaly]
        rcases hc with hc | hc
        · left; rw [hc, show s.ecc + 1 = 1 + s.ecc * 1 by ring, div_self (by linarith)]; norm_num
        · right; rw [hc, show s.ecc + -1 = -(1 + s.ecc * -1) by ring, neg_div, div_self (by linarith)]; norm_num
      rcases hE with hE | hE <;> rw [hE, hs] <;> norm_num
    · have := mul_self_pos.2 hs
      nlinarith [mul_self_nonneg (Real.cos (rad s.ta) + Real.cos (rad s.ea))]

theorem inc_best {s : Sat} (k : Kepler s) {d : V3} (h : steer (.element .inc) s = some d) :
    Best .inc s d ∧ (Real.cos (rad s.ta + rad s.aop) ≠ 0 → 0 < rate .inc s d) := by
  simp only [steer, Option.some.injEq] at h
  subst h
  have hk : 0 < s.rmag / s.hmag := div_pos k.rmag_pos k.hmag_pos
  have hform : ∀ a : V3, rate .inc s a = s.rmag / s.hmag * (Real.cos (rad s.ta + rad s.aop) * a 2) := by
    intro a; simp only [rate]; ring
  have hval : rate .inc s (vecOfPlane 0 (halfPi (Real.cos (rad s.ta + rad s.aop)))) =
      s.rmag / s.hmag * |Real.cos (rad s.ta + rad s.aop)| := by
    rw [hform, (planeHalf _).2.2, (normal_max _ (vecOfPlane 0 0) (plane_unit _ _)).2]
  refine ⟨⟨plane_unit _ _, fun a ha => ?_⟩, fun hne => ?_⟩
  · rw [hval, hform]
    exact mul_le_mul_of_nonneg_left (normal_max _ a ha).1 hk.le
  · rw [hval]; exact mul_pos hk (abs_pos.2 hne)

theorem raan_best {s : Sat} (k : Kepler s) (hi : 0 < Real.sin (rad s.inc)) {d : V3}
    (h : steer (.element .raan) s = some d) :
    Best .raan s d ∧ (Real.sin (rad s.ta + rad s.aop) ≠ 0 → 0 < rate .raan s d) := by
  simp only [steer, Option.some.injEq] at h
  subst h
  have hk : 0 < s.rmag / (s.hmag * Real.sin (rad s.inc)) := div_pos k.rmag_pos (mul_pos k.hmag_pos hi)
  have hform : ∀ a : V3, rate .raan s a =
      s.rmag / (s.hmag * Real.sin (rad s.inc)) * (Real.sin (rad s.ta + rad s.aop) * a 2) := by
    intro a; simp only [rate]; ring
  have hval : rate .raan s (vecOfPlane 0 (halfPi (Real.sin (rad s.ta + rad s.aop)))) =
      s.rmag / (s.hmag * Real.sin (rad s.inc)) * |Real.sin (rad s.ta + rad s.aop)| := by
    rw [hform, (planeHalf _).2.2, (normal_max _ (vecOfPlane 0 0) (plane_unit _ _)).2]
  refine ⟨⟨plane_unit _ _, fun a ha => ?_⟩, fun hne => ?_⟩
  · rw [hval, hform]
    exact mul_le_mul_of_nonneg_left (normal_max _ a ha).1 hk.le
  · rw [hval]; exact mul_pos hk (abs_pos.2 hne)

/-- Property C139, the directions of Ruggiero. On a closed orbit, the direction for the semi major axis, the
eccentricity, the inclination and the node is the best one there is; the size and the shape of the orbit always
change. The argument of periapsis is missing: see `aop_steered_away`. -/
theorem ruggiero_steering_partial {s : Sat} (k : Kepler s) (hi : 0 < Real.sin (rad s.inc)) (p : Elem)
    (hp : p = .sma ∨ p = .ecc ∨ p = .inc ∨ p = .raan) :
    ∃ d, steer (.element p) s = some d ∧ Best p s d ∧ (p = .sma ∨ p = .ecc → 0 < rate p s d) := by
  rcases hp with rfl | rfl | rfl | rfl
  · exact ⟨_, rfl, (sma_best k rfl).1, fun _ => (sma_best k rfl).2⟩
  · exact ⟨_, rfl, (ecc_best k rfl).1, fun _ => (ecc_best k rfl).2⟩
  · exact ⟨_, rfl, (inc_best k rfl).1, by simp⟩
  · exact ⟨_, rfl, (raan_best k hi rfl).1, by simp⟩

/-- Property C139, the law of Ruggiero. With one objective on such an element, outside of its tolerance and above
its efficiency threshold, the thrust moves the element towards its target, and no unit thrust moves it faster. -/
theorem ruggiero_moves_towards_partial (r : Ruggiero) {s : Sat} (k : Kepler s) (hi : 0 < Real.sin (rad s.inc))
    (hd : Rotation s.dcm) (hm : s.mode = .thrust) (p : Elem)
    (hp : p = .sma ∨ p = .ecc ∨ p = .inc ∨ p = .raan) (g : Goal) (hg : r.objectives = [g])
    (hgp : g.objective.param = .element p) (v η : ℝ) (hv : s.value (.element p) = some v)
    (hη : efficiency (.element p) s = some η) (htol : 0 < g.objective.tol)
    (hout : g.objective.tol ≤ |v - g.objective.desired|) (heff : g.knob ≤ η) :
    ∃ t, r.direction s = .ok t ∧ t ⬝ᵥ t = 1 ∧ 0 ≤ (g.objective.desired - v) * rate p s (s.dcmᵀ *ᵥ t) ∧
      (p = .sma ∨ p = .ecc → 0 < (g.objective.desired - v) * rate p s (s.dcmᵀ *ᵥ t)) ∧
      ∀ a : V3, a ⬝ᵥ a = 1 → |rate p s a| ≤ |rate p s (s.dcmᵀ *ᵥ t)| := by
  obtain ⟨d, hsd, hb, hpos⟩ := ruggiero_steering_partial k hi p hp
  have hsup : supported g.objective.param = true := by rw [hgp]; rcases hp with rfl | rfl | rfl | rfl <;> rfl
  obtain ⟨i, v', η', hi', hv', hη', hw⟩ := weighting_ok r hsup s g.knob
  rw [hgp] at hv' hη'
  have e1 : v' = v := by rw [hv] at hv'; exact (Option.some.inj hv').symm
  have e2 : η' = η := by rw [hη] at hη'; exact (Option.some.inj hη').symm
  rw [e1, e2] at hw
  set w := weigh i v g.objective.desired g.objective.tol η g.knob with hwd
  have hsign : 0 < w * (g.objective.desired - v) :=
    (weight_spec i v g.objective.desired g.objective.tol η g.knob htol).2.1 hout heff
  have hw0 : w ≠ 0 := by intro h0; rw [h0, zero_mul] at hsign; exact lt_irrefl _ hsign
  have hst : r.steering s 0 r.objectives = .ok (w • d) := by
    rw [hg]
    unfold Ruggiero.steering
    rw [hw]
    simp only [Out.bind]
    rw [if_neg (not_le.2 (abs_pos.2 hw0)), hgp, hsd]
    simp only [Ruggiero.steering, zero_add]
  have hnorm : nrm (w • d) = |w| := by
    have : nrm (w • d) = Real.sqrt ((w • d) ⬝ᵥ (w • d)) := rfl
    rw [this, smul_dotProduct, dotProduct_smul, hb.1, smul_eq_mul, smul_eq_mul, mul_one, Real.sqrt_mul_self_eq_abs]
  have hdir : r.direction s = .ok (s.dcm *ᵥ ((1 / |w|) • w • d)) := by
    unfold Ruggiero.direction
    rw [if_pos hm, hst]
    simp only [Out.bind]
    rw [hnorm, if_pos (abs_pos.2 hw0)]
  have hback : s.dcmᵀ *ᵥ (s.dcm *ᵥ ((1 / |w|) • w • d)) = (1 / |w| * w) • d := by
    rw [mulVec_mulVec, hd, one_mulVec, smul_smul]
  have hc : |1 / |w| * w| = 1 := by
    rw [abs_mul, abs_div, abs_one, abs_abs, one_div, inv_mul_cancel₀ (abs_pos.2 hw0).ne']
  have hc0 : 0 < 1 / |w| := div_pos one_pos (abs_pos.2 hw0)
  have hgap : 0 < (g.objective.desired - v) * (1 / |w| * w) := by nlinarith [mul_pos hc0 hsign]
  refine ⟨_, hdir, ?_, ?_, ?_, ?_⟩
  · rw [hd.dot, smul_smul, smul_dotProduct, dotProduct_smul, hb.1, smul_eq_mul, smul_eq_mul, mul_one,
      ← abs_mul_abs_self, hc, one_mul]
  · rw [hback, rate_smul, ← mul_assoc]
    exact mul_nonneg hgap.le hb.nonneg
  · intro h
    rw [hback, rate_smul, ← mul_assoc]
    exact mul_pos hgap (hpos h)
  · intro a ha
    rw [hback, rate_smul, abs_mul, hc, one_mul, abs_of_nonneg hb.nonneg]
    exact hb.abs a ha

theorem circular_inc : 0 < Real.sin (rad circular.inc) := by
  have : rad circular.inc = Real.pi / 2 := by show rad 90 = _; unfold rad; ring
  rw [this, Real.sin_pi_div_two]; exact one_pos

example := ruggiero_moves_towards_partial ⟨[⟨raise, 0⟩], none, circular⟩ circular_kepler circular_inc rotation_one rfl
  .sma (Or.inl rfl) ⟨raise, 0⟩ rfl rfl 4 1 rfl (efficiency_at_periapsis circular circular_kepler rfl).1
  (by norm_num [raise]) (by norm_num [raise]) zero_le_one

/-- Property C53 is false at the edge of the tolerance: an objective with an error of exactly its tolerance is
achieved, but the law still steers. -/
theorem achieved_but_steering :
    ∃ (r : Ruggiero) (s : Sat) (t : V3), Ruggiero.simple [⟨.element .sma, 5, 1, 1, 0⟩] s = some r ∧
      achieved s (r.objectives.map (·.objective)) = some true ∧ r.direction s = .ok t ∧ t ⬝ᵥ t = 1 := by
  obtain ⟨t, h1, h2, _⟩ := ruggiero_moves_towards_partial ⟨[⟨⟨.element .sma, 5, 1, 1, 0⟩, 0⟩], none, circular⟩
    circular_kepler circular_inc rotation_one rfl .sma (Or.inl rfl) ⟨⟨.element .sma, 5, 1, 1, 0⟩, 0⟩ rfl rfl 4 1 rfl
    (efficiency_at_periapsis circular circular_kepler rfl).1 (by norm_num) (by norm_num) zero_le_one
  refine ⟨_, circular, t, rfl, ?_, h1, h2⟩
  rw [achieved_iff]
  intro o ho
  have : o = ⟨.element .sma, 5, 1, 1, 0⟩ := by simpa using ho
  subst this
  exact ⟨4, rfl, by norm_num⟩

/-! ### The argument of periapsis -/

/-- The in plane correction of the argument of periapsis does increase it. -/
theorem aop_in_plane {s : Sat} (k : Kepler s) (he : 0 < s.ecc)
    (hb : |rad s.ta - optiAlpha s.ecc| < |rad s.ta - optiBeta s.ecc (rad s.aop)|) :
    ∃ d, steer (.element .aop) s = some d ∧ d ⬝ᵥ d = 1 ∧ 0 < rate .aop s d := by
  refine ⟨_, by simp only [steer]; rw [if_pos hb], plane_unit _ _, ?_⟩
  have hk : 0 < 1 / (s.hmag * s.ecc) := div_pos one_pos (mul_pos k.hmag_pos he)
  simp only [rate]
  rw [(plane0 _).2.2, mul_zero, sub_zero, (inplane_max _ _ _ hk.le (vecOfPlane 0 0) (plane_unit _ _)).2]
  refine mul_pos hk (Real.sqrt_pos.2 ?_)
  have h1 := k.semi_pos
  have h2 := k.rmag_pos
  by_cases hs : Real.sin (rad s.ta) = 0
  · have hc : Real.cos (rad s.ta) ^ 2 = 1 := by
      have := Real.sin_sq_add_cos_sq (rad s.ta); rw [hs] at this; linarith
    rw [hs]
    nlinarith [mul_pos h1 h1]
  · have hx : (s.semiParam + s.rmag) * Real.sin (rad s.ta) ≠ 0 := mul_ne_zero (by linarith) hs
    nlinarith [mul_self_pos.2 hx, mul_self_nonneg (-s.semiParam * Real.cos (rad s.ta))]

/-- A polar orbit of eccentricity one half, with its periapsis at the node, at a true anomaly of 270 degrees. -/
noncomputable def polar : Sat :=
  { mode := .thrust, sma := 4, ecc := 1 / 2, inc := 90, raan := 0, aop := 0, ta := 270, ea := 300, mu := 12
    vmag := Real.sqrt 5, rmag := 3, semiParam := 3, equiH := 0, equiK := 1 / 2, equiP := 0, equiQ := 1
    equiLambda := 0, more := fun _ => none, dcm := 1 }

theorem cos270 : Real.cos (rad 270) = 0 := by
  have : rad 270 = Real.pi / 2 + Real.pi := by unfold rad; ring
  rw [this, Real.cos_add_pi, Real.cos_pi_div_two, neg_zero]

theorem sin270 : Real.sin (rad 270) = -1 := by
  have : rad 270 = Real.pi / 2 + Real.pi := by unfold rad; ring
  rw [this, Real.sin_add_pi, Real.sin_pi_div_two]

theorem polar_kepler : Kepler polar where
  e0 := by norm_num [polar]
  e1 := by norm_num [polar]
  mu := by norm_num [polar]
  sma := by norm_num [polar]
  semi := by norm_num [polar]
  conic := by norm_num [polar, cos270]
  visViva := by
    show Real.sqrt 5 = Real.sqrt (12 * (2 / 3 - 1 / 4))
    norm_num
  anomaly := by
    show Real.cos (rad 300) = (1 / 2 + Real.cos (rad 270)) / (1 + 1 / 2 * Real.cos (rad 270))
    have : rad 300 = 2 * Real.pi - Real.pi / 3 := by unfold rad; ring
    rw [this, cos270, Real.cos_two_pi_sub, Real.cos_pi_div_three]
    norm_num
  equiH := by simp [polar, rad]
  equiK := by simp [polar, rad]

theorem polar_out_of_plane :
    ¬ |rad polar.ta - optiAlpha polar.ecc| < |rad polar.ta - optiBeta polar.ecc (rad polar.aop)| := by
  have hβ : optiBeta (1 / 2) 0 = 2 * Real.pi / 3 := by
    unfold optiBeta
    have : -(1 / 2 : ℝ) * Real.cos 0 = Real.cos (2 * Real.pi / 3) := by
      rw [Real.cos_zero, show 2 * Real.pi / 3 = Real.pi - Real.pi / 3 by ring, Real.cos_pi_sub,
        Real.cos_pi_div_three]; norm_num
    rw [this, Real.arccos_cos (by positivity) (by linarith [Real.pi_pos]), sub_zero]
  have hα : optiAlpha (1 / 2) ≤ 2 * Real.pi / 3 := by
    have hcos : Real.cos (2 * Real.pi / 3) = -(1 / 2) := by
      rw [show 2 * Real.pi / 3 = Real.pi - Real.pi / 3 by ring, Real.cos_pi_sub, Real.cos_pi_div_three]
    have harc : Real.arccos (-(1 / 2)) = 2 * Real.pi / 3 := by
      rw [← hcos, Real.arccos_cos (by positivity) (by linarith [Real.pi_pos])]
    unfold optiAlpha
    simp only
    rw [← harc]
    refine Real.arccos_le_arccos ?_
    rw [show (1 - (1 / 2 : ℝ) ^ 2) / (2 * (1 / 2) ^ 3) = 3 by norm_num,
      show 0.25 * ((1 - (1 / 2 : ℝ) ^ 2) / (1 / 2) ^ 3) ^ 2 + 1 / 27 = 244 / 27 by norm_num]
    have hr1 : (3006 / 1000 : ℝ) ≤ Real.sqrt (244 / 27) := Real.le_sqrt_of_sq_le (by norm_num)
    have hr2 : Real.sqrt (244 / 27) ≤ 3007 / 1000 := Real.sqrt_le_iff.2 ⟨by norm_num, by norm_num⟩
    have h1 : (9 / 5 : ℝ) ≤ (3 + Real.sqrt (244 / 27)) ^ ((1 : ℝ) / 3) := by
      have : (9 / 5 : ℝ) = ((9 / 5 : ℝ) ^ (3 : ℝ)) ^ ((1 : ℝ) / 3) := by
        rw [← Real.rpow_mul (by norm_num)]; norm_num
      rw [this]
      refine Real.rpow_le_rpow (by positivity) ?_ (by norm_num)
      rw [show (3 : ℝ) = ((3 : ℕ) : ℝ) by norm_num, Real.rpow_natCast]
      have : (9 / 5 : ℝ) ^ 3 = 5832 / 1000 := by norm_num
      linarith
    have h2 : (-3 + Real.sqrt (244 / 27)) ^ ((1 : ℝ) / 3) ≤ 3 / 10 := by
      have : (3 / 10 : ℝ) = ((3 / 10 : ℝ) ^ (3 : ℝ)) ^ ((1 : ℝ) / 3) := by
        rw [← Real.rpow_mul (by norm_num)]; norm_num
      rw [this]
      refine Real.rpow_le_rpow (by linarith) ?_ (by norm_num)
      rw [show (3 : ℝ) = ((3 : ℕ) : ℝ) by norm_num, Real.rpow_natCast]
      have : (3 / 10 : ℝ) ^ 3 = 27 / 1000 := by norm_num
      linarith
    have h3 : (1 : ℝ) / (1 / 2) = 2 := by norm_num
    linarith
  have hta : rad polar.ta = 3 * Real.pi / 2 := by show rad 270 = _; unfold rad; ring
  have hω : rad polar.aop = 0 := by show rad 0 = 0; unfold rad; ring
  have hpi := Real.pi_pos
  rw [hta, hω, show polar.ecc = 1 / 2 from rfl, hβ, not_lt, abs_of_nonneg (by linarith), abs_of_nonneg (by linarith)]
  linarith

/-- Property C139 is false for the argument of periapsis: the out of plane angle is multiplied by the cosine of
the inclination instead of taking its sign, so on a polar orbit the thrust is along track, and the argument of
periapsis decreases although its target is larger. -/
theorem aop_steered_away :
    ∃ (s : Sat) (r : Ruggiero) (t : V3), Kepler s ∧ Rotation s.dcm ∧ s.mode = .thrust ∧
      Ruggiero.simple [⟨.element .aop, 10, 1, 1, 0⟩] s = some r ∧ s.aop < 10 ∧
      r.direction s = .ok t ∧ t ⬝ᵥ t = 1 ∧ rate .aop s (s.dcmᵀ *ᵥ t) < 0 := by
  have hst : steer (.element .aop) polar = some (vecOfPlane 0 0) := by
    simp only [steer]
    rw [if_neg polar_out_of_plane]
    have : Real.cos (rad polar.inc) = 0 := by
      have : rad polar.inc = Real.pi / 2 := by show rad 90 = _; unfold rad; ring
      rw [this, Real.cos_pi_div_two]
    rw [this, mul_zero]
  have hw : weigh 0 0 10 1 1 0 = 1 := by unfold weigh; norm_num
  have hv : vecOfPlane 0 0 = ![0, 1, 0] := by simp [vecOfPlane]
  refine ⟨polar, ⟨[⟨⟨.element .aop, 10, 1, 1, 0⟩, 0⟩], none, polar⟩, ![0, 1, 0], polar_kepler, rotation_one, rfl, rfl,
    by norm_num [polar], ?_, ?_, ?_⟩
  · unfold Ruggiero.direction
    rw [if_pos (show polar.mode = .thrust from rfl)]
    have hst2 : (⟨[⟨⟨.element .aop, 10, 1, 1, 0⟩, 0⟩], none, polar⟩ : Ruggiero).steering polar 0
        [⟨⟨.element .aop, 10, 1, 1, 0⟩, 0⟩] = .ok ![0, 1, 0] := by
      unfold Ruggiero.steering
      have : (⟨[⟨⟨.element .aop, 10, 1, 1, 0⟩, 0⟩], none, polar⟩ : Ruggiero).weighting
          ⟨.element .aop, 10, 1, 1, 0⟩ polar 0 = .ok (weigh 0 0 10 1 1 0) := rfl
      rw [this, hw]
      simp only [Out.bind, hst, hv]
      rw [if_neg (by norm_num)]
      simp [Ruggiero.steering]
    simp only
    rw [hst2]
    have hn : nrm (![0, 1, 0] : V3) = 1 := by
      unfold Verif.MathU.nrm; rw [dot3]; simp
    simp only [Out.bind, hn]
    rw [if_pos one_pos]
    simp [polar]
  · rw [dot3]; simp
  · have hh : 0 < polar.hmag := polar_kepler.hmag_pos
    have : polar.dcmᵀ *ᵥ ![0, 1, 0] = ![0, 1, 0] := by simp [polar]
    rw [this]
    simp only [rate]
    have h1 : Real.sin (rad polar.ta) = -1 := sin270
    rw [h1]
    have e1 : (![0, 1, 0] : V3) 0 = 0 := rfl
    have e2 : (![0, 1, 0] : V3) 1 = 1 := rfl
    have e3 : (![0, 1, 0] : V3) 2 = 0 := rfl
    rw [e1, e2, e3, show polar.ecc = 1 / 2 from rfl, show polar.semiParam = 3 from rfl, show polar.rmag = 3 from rfl]
    have : 1 / (polar.hmag * (1 / 2)) > 0 := by positivity
    nlinarith

/-- An eccentric orbit at its periapsis. -/
noncomputable def periapsis : Sat :=
  { mode := .thrust, sma := 4, ecc := 1 / 2, inc := 90, raan := 0, aop := 0, ta := 0, ea := 0, mu := 12
    vmag := 3, rmag := 2, semiParam := 3, equiH := 0, equiK := 1 / 2, equiP := 0, equiQ := 1
    equiLambda := 0, more := fun _ => none, dcm := 1 }

theorem periapsis_kepler : Kepler periapsis where
  e0 := by norm_num [periapsis]
  e1 := by norm_num [periapsis]
  mu := by norm_num [periapsis]
  sma := by norm_num [periapsis]
  semi := by norm_num [periapsis]
  conic := by norm_num [periapsis, rad]
  visViva := by
    show (3 : ℝ) = Real.sqrt (12 * (2 / 2 - 1 / 4))
    rw [show (12 : ℝ) * (2 / 2 - 1 / 4) = 3 ^ 2 by norm_num]
    exact (Real.sqrt_sq (by norm_num)).symm
  anomaly := by norm_num [periapsis, rad]
  equiH := by simp [periapsis, rad]
  equiK := by simp [periapsis, rad]

theorem periapsis_in_plane : optiAlpha (1 / 2) < optiBeta (1 / 2) 0 := by
  have cube : ∀ x : ℝ, 0 ≤ x → (x ^ 3) ^ ((1 : ℝ) / 3) = x := by
    intro x hx
    rw [← Real.rpow_natCast, ← Real.rpow_mul hx]
    norm_num
  have r1 : (3 : ℝ) ≤ Real.sqrt (0.25 * ((1 - (1 / 2 : ℝ) ^ 2) / (1 / 2) ^ 3) ^ 2 + 1 / 27) := Real.le_sqrt_of_sq_le (by norm_num)
  have r2 : Real.sqrt (0.25 * ((1 - (1 / 2 : ℝ) ^ 2) / (1 / 2) ^ 3) ^ 2 + 1 / 27) ≤ 3.008 := Real.sqrt_le_iff.2 (by norm_num)
  unfold optiAlpha optiBeta
  simp only
  set r := Real.sqrt (0.25 * ((1 - (1 / 2 : ℝ) ^ 2) / (1 / 2) ^ 3) ^ 2 + 1 / 27)
  have q : (1 - (1 / 2 : ℝ) ^ 2) / (2 * (1 / 2) ^ 3) = 3 := by norm_num
  rw [q]
  have a1 : (1.8 : ℝ) ≤ (3 + r) ^ ((1 : ℝ) / 3) := by
    rw [← cube 1.8 (by norm_num)]
    exact Real.rpow_le_rpow (by norm_num) (by norm_num; linarith) (by norm_num)
  have a2 : (3 + r) ^ ((1 : ℝ) / 3) ≤ 2 := by
    rw [← cube 2 (by norm_num)]
    exact Real.rpow_le_rpow (by linarith) (by norm_num; linarith) (by norm_num)
  have b1 : 0 ≤ (-3 + r) ^ ((1 : ℝ) / 3) := Real.rpow_nonneg (by linarith) _
  have b2 : (-3 + r) ^ ((1 : ℝ) / 3) ≤ 0.2 := by
    rw [← cube 0.2 (by norm_num)]
    exact Real.rpow_le_rpow (by linarith) (by norm_num; linarith) (by norm_num)
  rw [sub_zero, Real.cos_zero]
  exact Real.arccos_lt_arccos (by norm_num) (by norm_num; linarith) (by norm_num; linarith)

example := aop_in_plane periapsis_kepler (by norm_num [periapsis]) (by
  have e : rad 0 = 0 := by simp [rad]
  show |rad 0 - optiAlpha (1 / 2)| < |rad 0 - optiBeta (1 / 2) (rad 0)|
  rw [e, zero_sub, zero_sub, abs_neg, abs_neg]
  have h := periapsis_in_plane
  have h0 : 0 ≤ optiAlpha (1 / 2) := Real.arccos_nonneg _
  rwa [abs_of_nonneg h0, abs_of_nonneg (h0.trans h.le)])

end Verif.Guide
