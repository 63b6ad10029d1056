import Verif.Lambert.Izzo
/-!
The equation of the time of flight of the solver of Izzo: at any `x` above -1 it is the time that the motion along the
orbit of the velocities takes.
-/
namespace Verif.Lambert
open Matrix
open Verif.MathU (V3 nrm atan2 dot3 nrm_sq nrm_nonneg ext3 cross0 cross1 cross2)

/-- The common part: Stumpff functions `c2`, `c3` at `phi` that satisfy three relations with `l`, `x`, `y` make the
motion last `tau` units of time. -/
theorem reach_of {r1 r2 : V3} (hx : r1 ⨯₃ r2 ≠ 0) {dm : ℝ} (hdm : dm = 1 ∨ dm = -1) {mu : ℝ} (hmu : 0 < mu) (x : ℝ)
    (hz : 0 ≤ (r1 ⨯₃ r2) 2) {phi c2 c3 tau p : ℝ} (hst : IsStumpff phi c2 c3) (hp : 0 < p)
    (hc2 : c2 = ((computeY x (izzoLambda dm r1 r2) - izzoLambda dm r1 r2 * x) / p) ^ 2 / 2)
    (hc3 : 1 - phi * c3 = (izzoLambda dm r1 r2 + x * (computeY x (izzoLambda dm r1 r2) - izzoLambda dm r1 r2 * x)) *
      ((computeY x (izzoLambda dm r1 r2) - izzoLambda dm r1 r2 * x) / p))
    (ht : 4 * p ^ 3 * c3 + 2 * izzoLambda dm r1 r2 * (computeY x (izzoLambda dm r1 r2) - izzoLambda dm r1 r2 * x) =
      tau)
    {v1 v2 : V3} (hv : izzoVelocities mu dm x (computeY x (izzoLambda dm r1 r2)) r1 r2 = (some v1, some v2)) :
    Reaches mu r1 v1 r2 v2 (tau * Real.sqrt (semi r1 r2 ^ 3 / (2 * mu))) := by
  obtain ⟨v1', v2', hv', h1, h2⟩ := izzo_as_gooding hx hdm hmu x hz rfl rfl
  rw [hv, Prod.mk.injEq, Option.some.injEq, Option.some.injEq] at hv'
  rw [← hv'.1] at h1
  rw [← hv'.2] at h2
  have ha2 := izzo_a_sq hx hdm
  obtain ⟨l0, l1, ld⟩ := izzoLambda_facts hx hdm
  have he := eta_pos (x := x) l1
  have hy2 := computeY_sq (x := x) l1.le
  have T := tri_of hx
  have hn1 := T.n1
  have hn2 := T.n2
  have sp := T.sp
  have hk : Real.sqrt (1 - nrm (r2 - r1) / semi r1 r2) ^ 2 = izzoLambda dm r1 r2 ^ 2 := by
    rw [izzoLambda_eq hdm, mul_pow, dm_sq hdm, one_mul]
  rw [hk] at hn1 hn2
  generalize izzoLambda dm r1 r2 = l at *
  generalize computeY x l = y at *
  generalize semi r1 r2 = s at *
  set e := y - l * x with hedef
  have hY : 0 < s * e ^ 2 := by positivity
  have ha : Real.sqrt 2 * l * s ≠ 0 := by positivity
  have hc2p : 0 < c2 := by rw [hc2]; positivity
  have s2 : Real.sqrt 2 ^ 2 = 2 := Real.sq_sqrt (by norm_num)
  have s2p : 0 < Real.sqrt 2 := Real.sqrt_pos.2 (by norm_num)
  have hq2 : Real.sqrt c2 = e / p / Real.sqrt 2 := by
    rw [hc2, Real.sqrt_div (by positivity), Real.sqrt_sq (by positivity)]
  have hyo : s * e ^ 2 = yOf (Real.sqrt 2 * l * s) (nrm r1) (nrm r2) phi c2 c3 := by
    rw [yOf, show phi * c3 - 1 = -(1 - phi * c3) by ring, hc3, hq2]
    have : Real.sqrt 2 * l * s * -((l + x * e) * (e / p)) / (e / p / Real.sqrt 2) = -(2 * l * s * (l + x * e)) := by
      field_simp
      rw [s2]; ring
    have hsum : nrm r1 + nrm r2 = s * (1 + l ^ 2) := by linarith
    rw [this, hsum, hedef]
    linear_combination s * hy2
  have hr := velocities_reach hmu ha hY hc2p hx ha2 hst hyo h1 h2
  have htime : timeOf mu (Real.sqrt 2 * l * s) c2 c3 (s * e ^ 2) = tau * Real.sqrt (s ^ 3 / (2 * mu)) := by
    have g1 : Real.sqrt (s * e ^ 2) = Real.sqrt s * e := by
      rw [Real.sqrt_mul sp.le, Real.sqrt_sq he.le]
    have g2 : Real.sqrt (s * e ^ 2 / c2) = Real.sqrt s * (Real.sqrt 2 * p) := by
      rw [Real.sqrt_div hY.le, g1, hq2]; field_simp
    have g3 : Real.sqrt (s ^ 3 / (2 * mu)) = Real.sqrt s ^ 3 / (Real.sqrt 2 * Real.sqrt mu) := by
      rw [Real.sqrt_div (by positivity), Real.sqrt_mul (by norm_num)]
      congr 1
      rw [show s ^ 3 = (Real.sqrt s ^ 3) ^ 2 by rw [← pow_mul, mul_comm, pow_mul, Real.sq_sqrt sp.le]]
      exact Real.sqrt_sq (by positivity)
    rw [timeOf, g1, g2, g3, ← ht]
    have hs' : s = Real.sqrt s ^ 2 := (Real.sq_sqrt sp.le).symm
    have hmp := Real.sqrt_pos.2 hmu
    rw [show Real.sqrt 2 * l * s * (Real.sqrt s * e) = Real.sqrt 2 * l * Real.sqrt s ^ 3 * e by
      nth_rewrite 1 [hs']; ring]
    generalize Real.sqrt s = q at *
    generalize Real.sqrt mu = w at *
    generalize Real.sqrt 2 = v at *
    field_simp
    linear_combination q ^ 3 * (2 * p ^ 3 * c3 + v ^ 2 * p ^ 3 * c3 + l * e) * s2
  rw [← htime]
  exact hr

/-- The angle of the elliptic case. -/
theorem psi_elliptic {l x y : ℝ} (hx1 : -1 < x) (hx2 : x < 1) (hy2 : y ^ 2 = 1 - l ^ 2 * (1 - x ^ 2))
    (he : 0 < y - l * x) :
    Real.cos (computePsi x y l) = l + x * (y - l * x) ∧
      Real.sin (computePsi x y l) = Real.sqrt (1 - x ^ 2) * (y - l * x) ∧
      0 < computePsi x y l ∧ computePsi x y l < Real.pi := by
  have hq : 0 < 1 - x ^ 2 := by nlinarith
  have hsq : Real.sqrt (1 - x ^ 2) ^ 2 = 1 - x ^ 2 := Real.sq_sqrt hq.le
  have hqp := Real.sqrt_pos.2 hq
  have key : (l + x * (y - l * x)) ^ 2 + (Real.sqrt (1 - x ^ 2) * (y - l * x)) ^ 2 = 1 := by
    rw [mul_pow, hsq]; linear_combination hy2
  have hp : computePsi x y l = Real.arccos (l + x * (y - l * x)) := by
    rw [computePsi, if_neg (not_lt.2 hx2.le), if_pos hx2]; congr 1; ring
  have hs : 0 < Real.sqrt (1 - x ^ 2) * (y - l * x) := by positivity
  have hlt : (l + x * (y - l * x)) ^ 2 < 1 := by nlinarith
  have hb : -1 < l + x * (y - l * x) ∧ l + x * (y - l * x) < 1 := by
    constructor <;> nlinarith
  rw [hp]
  refine ⟨Real.cos_arccos hb.1.le hb.2.le, ?_, ?_, ?_⟩
  · rw [Real.sin_arccos, show 1 - (l + x * (y - l * x)) ^ 2 = (Real.sqrt (1 - x ^ 2) * (y - l * x)) ^ 2 by linarith]
    exact Real.sqrt_sq hs.le
  · exact Real.arccos_pos.2 hb.2
  · rcases (Real.arccos_le_pi (l + x * (y - l * x))).lt_or_eq with h | h
    · exact h
    · rw [Real.arccos_eq_pi] at h; linarith

/-- The angle of the hyperbolic case. -/
theorem psi_hyperbolic {l x y : ℝ} (hx1 : 1 < x) (hy2 : y ^ 2 = 1 - l ^ 2 * (1 - x ^ 2)) (hy0 : 0 ≤ y)
    (he : 0 < y - l * x) :
    Real.cosh (computePsi x y l) = l + x * (y - l * x) ∧
      Real.sinh (computePsi x y l) = Real.sqrt (x ^ 2 - 1) * (y - l * x) ∧ 0 < computePsi x y l := by
  have hq : 0 < x ^ 2 - 1 := by nlinarith
  have hsq : Real.sqrt (x ^ 2 - 1) ^ 2 = x ^ 2 - 1 := Real.sq_sqrt hq.le
  have hqp := Real.sqrt_pos.2 hq
  have hp : computePsi x y l = Real.arsinh (Real.sqrt (x ^ 2 - 1) * (y - l * x)) := by
    rw [computePsi, if_pos hx1]; congr 1; ring
  have hs : 0 < Real.sqrt (x ^ 2 - 1) * (y - l * x) := by positivity
  have hpos : 0 ≤ l + x * (y - l * x) := by
    rcases le_or_gt 0 l with h | h
    · have : 0 ≤ x * (y - l * x) := by positivity
      linarith
    · nlinarith [mul_nonneg hy0 (by linarith : (0 : ℝ) ≤ x), mul_pos (neg_pos.2 h) hq]
  rw [hp]
  refine ⟨?_, Real.sinh_arsinh _, Real.arsinh_pos_iff.2 hs⟩
  rw [Real.cosh_arsinh]
  rw [show 1 + (Real.sqrt (x ^ 2 - 1) * (y - l * x)) ^ 2 = (l + x * (y - l * x)) ^ 2 by
    rw [mul_pow, hsq]; linear_combination -hy2]
  exact Real.sqrt_sq hpos

theorem key_poly {l x y q : ℝ} (hq : q ^ 2 = 1 - x ^ 2) (hy2 : y ^ 2 = 1 - l ^ 2 * (1 - x ^ 2)) :
    -(y - l * x) * (l + x * (y - l * x)) + 2 * l * (y - l * x) * q ^ 2 = -x + l * y := by
  rw [hq]; linear_combination -x * hy2

/-- **Time of flight in closed form.** -/
theorem closed_reach {r1 r2 : V3} (hx : r1 ⨯₃ r2 ≠ 0) {dm : ℝ} (hdm : dm = 1 ∨ dm = -1) {mu : ℝ} (hmu : 0 < mu) {x : ℝ}
    (hz : 0 ≤ (r1 ⨯₃ r2) 2) {m : Nat} (hm : x < 1 ∨ m = 0) {tau : ℝ} {v1 v2 : V3}
    (ht : tofClosed x (computeY x (izzoLambda dm r1 r2)) (izzoLambda dm r1 r2) m = some tau)
    (hv : izzoVelocities mu dm x (computeY x (izzoLambda dm r1 r2)) r1 r2 = (some v1, some v2)) :
    Reaches mu r1 v1 r2 v2 (tau * Real.sqrt (semi r1 r2 ^ 3 / (2 * mu))) := by
  obtain ⟨l0, l1, ld⟩ := izzoLambda_facts hx hdm
  have he := eta_pos (x := x) l1
  have hy2 := computeY_sq (x := x) l1.le
  have hy0 : 0 ≤ computeY x (izzoLambda dm r1 r2) := Real.sqrt_nonneg _
  rw [tofClosed] at ht
  split_ifs at ht with h1 h2
  rw [Option.some.injEq] at ht
  rw [not_le] at h1
  rcases lt_or_gt_of_ne h2 with h3 | h3
  · obtain ⟨e1, e2, e3, e4⟩ := psi_elliptic h1 h3 hy2 he
    have hq : 0 < 1 - x ^ 2 := by nlinarith
    have hsq : Real.sqrt (1 - x ^ 2) ^ 2 = 1 - x ^ 2 := Real.sq_sqrt hq.le
    have hqp := Real.sqrt_pos.2 hq
    rw [abs_of_pos hq] at ht
    set ψ := computePsi x (computeY x (izzoLambda dm r1 r2)) (izzoLambda dm r1 r2) with hψ
    have hmp : 0 ≤ (m : ℝ) * Real.pi := by positivity
    have hP : 0 < ψ + m * Real.pi := by linarith
    have hs2 : Real.sin (2 * (ψ + m * Real.pi)) = 2 * Real.sin ψ * Real.cos ψ := by
      rw [show 2 * (ψ + m * Real.pi) = 2 * ψ + m * (2 * Real.pi) by ring, Real.sin_add_nat_mul_two_pi, Real.sin_two_mul]
    have hc2 : Real.cos (2 * (ψ + m * Real.pi)) = 1 - 2 * Real.sin ψ ^ 2 := by
      rw [show 2 * (ψ + m * Real.pi) = 2 * ψ + m * (2 * Real.pi) by ring, Real.cos_add_nat_mul_two_pi, Real.cos_two_mul,
        Real.cos_sq']; ring
    have hsφ : Real.sqrt ((2 * (ψ + m * Real.pi)) ^ 2) = 2 * (ψ + m * Real.pi) := Real.sqrt_sq (by linarith)
    refine reach_of hx hdm hmu x hz (phi := (2 * (ψ + m * Real.pi)) ^ 2)
      (c2 := (1 - Real.cos (Real.sqrt ((2 * (ψ + m * Real.pi)) ^ 2))) / (2 * (ψ + m * Real.pi)) ^ 2)
      (c3 := (Real.sqrt ((2 * (ψ + m * Real.pi)) ^ 2) - Real.sin (Real.sqrt ((2 * (ψ + m * Real.pi)) ^ 2))) /
        Real.sqrt ((2 * (ψ + m * Real.pi)) ^ 2) ^ 3) (p := (ψ + m * Real.pi) / Real.sqrt (1 - x ^ 2))
      (Or.inl ⟨by positivity, rfl, rfl⟩) (by positivity) ?_ ?_ ?_ hv
    · rw [hsφ, hc2, e2]
      field_simp
      ring
    · rw [hsφ, hs2, e1, e2]
      field_simp
      ring
    · rw [hsφ, hs2, e1, e2, ← ht]
      generalize izzoLambda dm r1 r2 = l at *
      generalize computeY x l = y at *
      generalize ψ + m * Real.pi = P at *
      generalize Real.sqrt (1 - x ^ 2) = q at *
      have k := key_poly hsq hy2
      rw [← hsq]
      generalize y - l * x = e at *
      have e5 : 4 * (P / q) ^ 3 * ((2 * P - 2 * (q * e) * (l + x * e)) / (2 * P) ^ 3) + 2 * l * e =
          (P / q + (-e * (l + x * e) + 2 * l * e * q ^ 2)) / q ^ 2 := by field_simp; ring
      rw [e5, k]; ring
  · have hm0 : m = 0 := hm.resolve_left (by linarith)
    obtain ⟨e1, e2, e3⟩ := psi_hyperbolic h3 hy2 hy0 he
    have hq : 0 < x ^ 2 - 1 := by nlinarith
    have hsq : Real.sqrt (x ^ 2 - 1) ^ 2 = x ^ 2 - 1 := Real.sq_sqrt hq.le
    have hqp := Real.sqrt_pos.2 hq
    rw [hm0, Nat.cast_zero, zero_mul, add_zero, abs_of_neg (by linarith), neg_sub] at ht
    set ψ := computePsi x (computeY x (izzoLambda dm r1 r2)) (izzoLambda dm r1 r2) with hψ
    have hs2 : Real.sinh (2 * ψ) = 2 * Real.sinh ψ * Real.cosh ψ := Real.sinh_two_mul ψ
    have hc2 : Real.cosh (2 * ψ) = 1 + 2 * Real.sinh ψ ^ 2 := by
      rw [Real.cosh_two_mul, Real.cosh_sq]; ring
    have hsφ : Real.sqrt (-(-(2 * ψ) ^ 2)) = 2 * ψ := by rw [neg_neg]; exact Real.sqrt_sq (by linarith)
    refine reach_of hx hdm hmu x hz (phi := -(2 * ψ) ^ 2)
      (c2 := (1 - Real.cosh (Real.sqrt (-(-(2 * ψ) ^ 2)))) / -(2 * ψ) ^ 2)
      (c3 := (Real.sinh (Real.sqrt (-(-(2 * ψ) ^ 2))) - Real.sqrt (-(-(2 * ψ) ^ 2))) /
        Real.sqrt (-(-(2 * ψ) ^ 2)) ^ 3) (p := ψ / Real.sqrt (x ^ 2 - 1))
      (Or.inr (Or.inr ⟨by simp only [Left.neg_neg_iff]; positivity, rfl, rfl⟩)) (by positivity) ?_ ?_ ?_ hv
    · rw [hsφ, hc2, e2]
      field_simp
      ring
    · rw [hsφ, hs2, e1, e2]
      field_simp
      ring
    · rw [hsφ, hs2, e1, e2, ← ht]
      generalize izzoLambda dm r1 r2 = l at *
      generalize computeY x l = y at *
      generalize Real.sqrt (x ^ 2 - 1) = q at *
      have k : (y - l * x) * (l + x * (y - l * x)) + 2 * l * (y - l * x) * q ^ 2 = x - l * y := by
        rw [hsq]; linear_combination x * hy2
      rw [show 1 - x ^ 2 = -q ^ 2 by rw [hsq]; ring]
      generalize y - l * x = e at *
      have e5 : 4 * (ψ / q) ^ 3 * ((2 * (q * e) * (l + x * e) - 2 * ψ) / (2 * ψ) ^ 3) + 2 * l * e =
          (ψ / q - (e * (l + x * e) + 2 * l * e * q ^ 2)) / -q ^ 2 := by field_simp; ring
      rw [e5, k]; ring

end Verif.Lambert
