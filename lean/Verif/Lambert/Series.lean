import Verif.Lambert.Time
import Mathlib.Analysis.Calculus.SmoothSeries
import Mathlib.Analysis.SpecificLimits.Normed
/-!
The series of the solver of Izzo for `x` near 1 has the same value as the closed form, and continues it at 1.
-/
namespace Verif.Lambert
open Matrix
open Verif.MathU (V3 nrm atan2 dot3 nrm_sq nrm_nonneg ext3 cross0 cross1 cross2)

/-- The coefficients of the series. -/
noncomputable def hc : Nat → ℝ
  | 0 => 1
  | n + 1 => hc n * ((3 + n) / (5 / 2 + n))

theorem hypTerm_eq (z : ℝ) : ∀ n, hypTerm z n = hc n * z ^ n
  | 0 => by simp [hypTerm, hc]
  | n + 1 => by
    rw [hypTerm, hypTerm_eq z n, hc, pow_succ]
    have : (n : ℝ) + 1 ≠ 0 := by positivity
    have : (5 / 2 : ℝ) + n ≠ 0 := by positivity
    field_simp
    ring

theorem hc_pos : ∀ n, 0 < hc n
  | 0 => one_pos
  | n + 1 => mul_pos (hc_pos n) (by positivity)

theorem hc_le : ∀ n : Nat, hc n ≤ n + 1
  | 0 => by simp [hc]
  | n + 1 => by
    rw [hc, Nat.cast_add, Nat.cast_one]
    have h1 := hc_le n
    have h2 : ((3 : ℝ) + n) / (5 / 2 + n) ≤ (n + 2) / (n + 1) := by
      rw [div_le_div_iff₀ (by positivity) (by positivity)]
      have : (0 : ℝ) ≤ n := Nat.cast_nonneg n
      nlinarith
    calc hc n * ((3 + n) / (5 / 2 + n)) ≤ (n + 1) * ((n + 2) / (n + 1)) :=
          mul_le_mul h1 h2 (by positivity) (by positivity)
      _ = n + 1 + 1 := by field_simp; ring

theorem summable_majorant {ρ : ℝ} (h0 : 0 ≤ ρ) (h1 : ρ < 1) : Summable fun n : Nat => ((n : ℝ) + 1) ^ 2 * ρ ^ n := by
  have hn : ‖ρ‖ < 1 := by rwa [Real.norm_eq_abs, abs_of_nonneg h0]
  have a := summable_pow_mul_geometric_of_norm_lt_one 2 hn
  have b := summable_pow_mul_geometric_of_norm_lt_one 1 hn
  have c := summable_pow_mul_geometric_of_norm_lt_one 0 hn
  refine ((a.add (b.mul_left 2)).add c).congr fun n => ?_
  ring

theorem hyp_summable {z : ℝ} (hz : |z| < 1) : Summable fun n => hc n * z ^ n := by
  refine Summable.of_norm_bounded (summable_majorant (abs_nonneg z) hz) fun n => ?_
  rw [norm_mul, norm_pow, Real.norm_eq_abs, Real.norm_eq_abs, abs_of_pos (hc_pos n)]
  refine mul_le_mul_of_nonneg_right ((hc_le n).trans ?_) (by positivity)
  have : (0 : ℝ) ≤ n := Nat.cast_nonneg n
  nlinarith

theorem hyp_summable' {z : ℝ} (hz : |z| < 1) : Summable fun n : Nat => hc n * (n * z ^ (n - 1)) := by
  rw [← summable_nat_add_iff 1]
  refine Summable.of_norm_bounded ((summable_majorant (abs_nonneg z) hz).mul_left 2) fun n => ?_
  rw [norm_mul, norm_mul, norm_pow, Real.norm_eq_abs, Real.norm_eq_abs, Real.norm_eq_abs, abs_of_pos (hc_pos _),
    Nat.add_sub_cancel, Nat.abs_cast]
  have h := hc_le (n + 1)
  have hn : (0 : ℝ) ≤ n := Nat.cast_nonneg n
  rw [← mul_assoc, ← mul_assoc]
  refine mul_le_mul_of_nonneg_right ?_ (by positivity)
  push_cast at h ⊢
  have : hc (n + 1) * ((n : ℝ) + 1) ≤ (n + 1 + 1) * (n + 1) := mul_le_mul_of_nonneg_right h (by positivity)
  nlinarith

/-- The sum of the series. -/
noncomputable def hypF (z : ℝ) : ℝ := ∑' n, hc n * z ^ n

/-- The sum of the derivatives of the terms. -/
noncomputable def hypD (z : ℝ) : ℝ := ∑' n : Nat, hc n * (n * z ^ (n - 1))

theorem hypF_deriv {z : ℝ} (hz : |z| < 1) : HasDerivAt hypF (hypD z) z := by
  obtain ⟨ρ, h1, h2⟩ := exists_between hz
  have hρ : 0 ≤ ρ := (abs_nonneg z).trans h1.le
  refine hasDerivAt_tsum_of_isPreconnected (t := Metric.ball 0 ρ) (y₀ := 0) (u := fun n : Nat => hc n * (n * ρ ^ (n - 1)))
    (g := fun n z => hc n * z ^ n) (g' := fun n z => hc n * (n * z ^ (n - 1)))
    (hyp_summable' (by rwa [abs_of_nonneg hρ])) Metric.isOpen_ball
    (convex_ball (0 : ℝ) ρ).isPreconnected ?_ ?_ ?_ (hyp_summable (by norm_num)) ?_
  · intro n y _
    exact (hasDerivAt_pow n y).const_mul (hc n)
  · intro n y hy
    rw [mem_ball_zero_iff, Real.norm_eq_abs] at hy
    rw [norm_mul, norm_mul, norm_pow, Real.norm_eq_abs, Real.norm_eq_abs, Real.norm_eq_abs, abs_of_pos (hc_pos _),
      Nat.abs_cast]
    have := pow_le_pow_left₀ (abs_nonneg y) hy.le (n - 1)
    have := hc_pos n
    gcongr
  · rw [mem_ball_zero_iff, norm_zero]; exact (abs_nonneg z).trans_lt h1
  · rw [mem_ball_zero_iff]; exact h1

/-- The differential equation of the sum. -/
theorem hyp_ode {z : ℝ} (hz : |z| < 1) : z * (1 - z) * hypD z + 3 / 2 * (1 - 2 * z) * hypF z = 3 / 2 := by
  have hS := hyp_summable hz
  have hD : z * hypD z = ∑' n : Nat, (n : ℝ) * (hc n * z ^ n) := by
    rw [hypD, ← tsum_mul_left]
    refine tsum_congr fun n => ?_
    cases n with
    | zero => simp
    | succ n => rw [Nat.add_sub_cancel, pow_succ]; ring
  have hSD : Summable fun n : Nat => (n : ℝ) * (hc n * z ^ n) := by
    refine ((hyp_summable' hz).mul_left z).congr fun n => ?_
    cases n with
    | zero => simp
    | succ n => rw [Nat.add_sub_cancel, pow_succ]; ring
  have e1 : z * hypD z + 3 / 2 * hypF z = ∑' n : Nat, ((n : ℝ) + 3 / 2) * (hc n * z ^ n) := by
    rw [hD, hypF, ← tsum_mul_left, ← hSD.tsum_add (hS.mul_left _)]
    exact tsum_congr fun n => by ring
  have e2 : z * (z * hypD z + 3 * hypF z) = ∑' n : Nat, ((n : ℝ) + 3) * (hc n * z ^ (n + 1)) := by
    rw [hD, hypF, ← tsum_mul_left, ← hSD.tsum_add (hS.mul_left _), ← tsum_mul_left]
    exact tsum_congr fun n => by rw [pow_succ]; ring
  have e3 : (∑' n : Nat, ((n : ℝ) + 3 / 2) * (hc n * z ^ n)) =
      3 / 2 + ∑' n : Nat, ((n : ℝ) + 3) * (hc n * z ^ (n + 1)) := by
    have hs : Summable fun n : Nat => ((n : ℝ) + 3 / 2) * (hc n * z ^ n) :=
      (hSD.add (hS.mul_left (3 / 2))).congr fun n => by ring
    rw [hs.tsum_eq_zero_add]
    congr 1
    · simp [hc]
    · refine tsum_congr fun n => ?_
      rw [hc]
      push_cast
      have : (5 / 2 : ℝ) + n ≠ 0 := by positivity
      field_simp
      ring
  linear_combination e1 - e2 + e3

/-- The value of the sum at the sine of half an angle squared. -/
theorem hyp_elliptic {ψ : ℝ} (h0 : 0 ≤ ψ) (h1 : ψ < Real.pi) :
    Real.sin ψ ^ 3 * hypF ((1 - Real.cos ψ) * (1 / 2)) = 3 / 2 * (ψ - Real.sin ψ * Real.cos ψ) := by
  have key := const_on (f := fun t => Real.sin t ^ 3 * hypF ((1 - Real.cos t) * (1 / 2)) -
    3 / 2 * (t - Real.sin t * Real.cos t)) h0 ?_
  · simp only [Real.sin_zero, Real.cos_zero] at key
    linarith
  · intro t ht
    have hc1 := Real.cos_le_one t
    have hc2 : -1 < Real.cos t := by
      rw [← Real.cos_pi]
      exact Real.cos_lt_cos_of_nonneg_of_le_pi ht.1 le_rfl (ht.2.trans_lt h1)
    have hz : |(1 - Real.cos t) * (1 / 2)| < 1 := by rw [abs_lt]; constructor <;> linarith
    have o := hyp_ode hz
    have hF := hypF_deriv hz
    have hin : HasDerivAt (fun t => (1 - Real.cos t) * (1 / 2)) (Real.sin t * (1 / 2)) t := by
      refine hd (((Real.hasDerivAt_cos t).const_sub 1).mul_const (1 / 2)) ?_
      ring
    have hcomp := hF.comp t hin
    refine hd ((((Real.hasDerivAt_sin t).pow 3).mul hcomp).sub
      (((hasDerivAt_id t).sub ((Real.hasDerivAt_sin t).mul (Real.hasDerivAt_cos t))).const_mul (3 / 2))) ?_
    have hs := Real.sin_sq_add_cos_sq t
    simp only [Function.comp, Pi.pow_apply]
    generalize hypF ((1 - Real.cos t) * (1 / 2)) = F at *
    generalize hypD ((1 - Real.cos t) * (1 / 2)) = D at *
    generalize Real.sin t = s at *
    generalize Real.cos t = c at *
    linear_combination 2 * s ^ 2 * o + (s ^ 2 * D / 2 + 3 / 2) * hs

theorem hyp_hyperbolic {ψ : ℝ} (h0 : 0 ≤ ψ) (h1 : Real.cosh ψ < 3) :
    Real.sinh ψ ^ 3 * hypF ((1 - Real.cosh ψ) * (1 / 2)) = 3 / 2 * (Real.sinh ψ * Real.cosh ψ - ψ) := by
  have key := const_on (f := fun t => Real.sinh t ^ 3 * hypF ((1 - Real.cosh t) * (1 / 2)) -
    3 / 2 * (Real.sinh t * Real.cosh t - t)) h0 ?_
  · simp only [Real.sinh_zero, Real.cosh_zero] at key
    linarith
  · intro t ht
    have hc1 := Real.one_le_cosh t
    have hc2 : Real.cosh t < 3 := by
      refine lt_of_le_of_lt ?_ h1
      rw [Real.cosh_le_cosh, abs_of_nonneg ht.1, abs_of_nonneg h0]
      exact ht.2
    have hz : |(1 - Real.cosh t) * (1 / 2)| < 1 := by rw [abs_lt]; constructor <;> linarith
    have o := hyp_ode hz
    have hF := hypF_deriv hz
    have hin : HasDerivAt (fun t => (1 - Real.cosh t) * (1 / 2)) (-Real.sinh t * (1 / 2)) t :=
      ((Real.hasDerivAt_cosh t).const_sub 1).mul_const (1 / 2)
    have hcomp := hF.comp t hin
    refine hd ((((Real.hasDerivAt_sinh t).pow 3).mul hcomp).sub
      ((((Real.hasDerivAt_sinh t).mul (Real.hasDerivAt_cosh t)).sub (hasDerivAt_id t)).const_mul (3 / 2))) ?_
    have hs := Real.cosh_sq t
    simp only [Function.comp, Pi.pow_apply]
    generalize hypF ((1 - Real.cosh t) * (1 / 2)) = F at *
    generalize hypD ((1 - Real.cosh t) * (1 / 2)) = D at *
    generalize Real.sinh t = s at *
    generalize Real.cosh t = c at *
    linear_combination 2 * s ^ 2 * o + (s ^ 2 * D / 2 - 3 / 2) * hs

theorem hyp2f1b_eq {z h : ℝ} (hh : hyp2f1b z = some h) : -1 < z ∧ z < 1 ∧ h = hypF z := by
  rw [hyp2f1b] at hh
  split_ifs at hh with h1 h2
  rw [Option.some.injEq] at hh
  exact ⟨not_le.1 h2, not_le.1 h1, by rw [← hh, hypF]; exact tsum_congr fun n => hypTerm_eq z n⟩

/-- Where it is used, the series gives the same value as the closed form. -/
theorem series_eq_closed {l x tau : ℝ} (hl : l ^ 2 < 1) (hx1 : -1 < x) (hx : x ≠ 1)
    (h : tofSeries x (computeY x l) l = some tau) : tofClosed x (computeY x l) l 0 = some tau := by
  have he := eta_pos (x := x) hl
  have hy2 := computeY_sq (x := x) hl.le
  have hy0 : 0 ≤ computeY x l := Real.sqrt_nonneg _
  rw [tofSeries, Option.map_eq_some_iff] at h
  obtain ⟨hh, h2, h3⟩ := h
  obtain ⟨z1, z2, rfl⟩ := hyp2f1b_eq h2
  rw [tofClosed, if_neg (not_le.2 hx1), if_neg hx, ← h3, Nat.cast_zero, zero_mul, add_zero]
  congr 1
  rcases lt_or_gt_of_ne hx with hlt | hgt
  · obtain ⟨e1, e2, e3, e4⟩ := psi_elliptic hx1 hlt hy2 he
    have hq : 0 < 1 - x ^ 2 := by nlinarith
    have hsq : Real.sqrt (1 - x ^ 2) ^ 2 = 1 - x ^ 2 := Real.sq_sqrt hq.le
    have hqp := Real.sqrt_pos.2 hq
    have k := key_poly hsq hy2
    have hF := hyp_elliptic e3.le e4
    rw [abs_of_pos hq, ← hsq, Real.sqrt_sq hqp.le]
    rw [e1, e2] at hF
    rw [show 1 - l - x * (computeY x l - l * x) = 1 - (l + x * (computeY x l - l * x)) by ring]
    rw [sub_add, show (x - l * computeY x l) = -(-x + l * computeY x l) by ring, ← k]
    generalize Real.sqrt (1 - x ^ 2) = q at *
    generalize computePsi x (computeY x l) l = ψ at *
    generalize computeY x l - l * x = e at *
    generalize hypF ((1 - (l + x * e)) * (1 / 2)) = F at *
    have h4 : ψ = q * e * (l + x * e) + 2 / 3 * ((q * e) ^ 3 * F) := by rw [hF]; ring
    rw [h4]
    field_simp
    ring
  · obtain ⟨e1, e2, e3⟩ := psi_hyperbolic hgt hy2 hy0 he
    have hq : 0 < x ^ 2 - 1 := by nlinarith
    have hsq : Real.sqrt (x ^ 2 - 1) ^ 2 = x ^ 2 - 1 := Real.sq_sqrt hq.le
    have hqp := Real.sqrt_pos.2 hq
    have k : (computeY x l - l * x) * (l + x * (computeY x l - l * x)) + 2 * l * (computeY x l - l * x) *
        Real.sqrt (x ^ 2 - 1) ^ 2 = x - l * computeY x l := by
      rw [hsq]; linear_combination x * hy2
    have hF := hyp_hyperbolic e3.le (by rw [e1]; linarith)
    rw [abs_of_neg (by linarith), neg_sub, show 1 - x ^ 2 = -(x ^ 2 - 1) by ring, ← hsq, Real.sqrt_sq hqp.le]
    rw [e1, e2] at hF
    rw [show 1 - l - x * (computeY x l - l * x) = 1 - (l + x * (computeY x l - l * x)) by ring]
    rw [sub_add, ← k]
    generalize Real.sqrt (x ^ 2 - 1) = q at *
    generalize computePsi x (computeY x l) l = ψ at *
    generalize computeY x l - l * x = e at *
    generalize hypF ((1 - (l + x * e)) * (1 / 2)) = F at *
    have h4 : ψ = q * e * (l + x * e) - 2 / 3 * ((q * e) ^ 3 * F) := by rw [hF]; ring
    rw [h4]
    field_simp
    ring

theorem hypF_zero : hypF 0 = 1 := by
  rw [hypF, tsum_eq_single 0]
  · simp [hc]
  · intro n hn; simp [hn]

theorem computeY_one (l : ℝ) : computeY 1 l = 1 := by rw [computeY]; norm_num

/-- The series at the parabola. -/
theorem series_one {l tau : ℝ} (h : tofSeries 1 (computeY 1 l) l = some tau) :
    tau = 2 / 3 * (1 - l) ^ 3 + 2 * l * (1 - l) := by
  rw [tofSeries, Option.map_eq_some_iff] at h
  obtain ⟨hh, h2, h3⟩ := h
  obtain ⟨z1, z2, rfl⟩ := hyp2f1b_eq h2
  rw [computeY_one] at h3
  rw [← h3, show (1 - l - 1 * (1 - l * 1)) * (1 / 2) = 0 by ring, hypF_zero]; ring

/-- The series is not evaluated at -1 or below. -/
theorem series_above {l x tau : ℝ} (hl : l ^ 2 < 1) (h : tofSeries x (computeY x l) l = some tau) : -1 < x := by
  by_contra hx
  rw [not_lt] at hx
  have he := eta_pos (x := x) hl
  have hy2 := computeY_sq (x := x) hl.le
  have hy0 : 0 ≤ computeY x l := Real.sqrt_nonneg _
  rw [tofSeries, Option.map_eq_some_iff] at h
  obtain ⟨hh, h2, _⟩ := h
  obtain ⟨_, z2, _⟩ := hyp2f1b_eq h2
  generalize computeY x l = y at *
  -- the cosine of the angle would be above -1, while its square is at least one and it is negative
  have h1 : (l + x * (y - l * x)) ^ 2 = 1 + (x ^ 2 - 1) * (y - l * x) ^ 2 := by linear_combination hy2
  have h3 : -1 < l + x * (y - l * x) := by linarith
  have h4 : 0 ≤ (x ^ 2 - 1) * (y - l * x) ^ 2 := mul_nonneg (by nlinarith) (sq_nonneg _)
  have h5 : l < 1 := by nlinarith
  have h6 : x * (y - l * x) < 0 := mul_neg_of_neg_of_pos (by linarith) he
  nlinarith

/-- **The equation of the time of flight.** Where the equation has a value, the motion lasts the time asked for plus the
value of the equation, in the solver's unit of time. -/
theorem tof_reach {r1 r2 : V3} (hx : r1 ⨯₃ r2 ≠ 0) {dm : ℝ} (hdm : dm = 1 ∨ dm = -1) {mu : ℝ} (hmu : 0 < mu) {x : ℝ}
    (hz : 0 ≤ (r1 ⨯₃ r2) 2) {m : Nat} (hm : x < 1 ∨ m = 0) {t res : ℝ} {v1 v2 : V3}
    (ht : tofEquation x t (izzoLambda dm r1 r2) m = some res)
    (hv : izzoVelocities mu dm x (computeY x (izzoLambda dm r1 r2)) r1 r2 = (some v1, some v2)) :
    Reaches mu r1 v1 r2 v2 ((t + res) * Real.sqrt (semi r1 r2 ^ 3 / (2 * mu))) := by
  obtain ⟨l0, l1, ld⟩ := izzoLambda_facts hx hdm
  rw [tofEquation, tofEquationY, Option.map_eq_some_iff] at ht
  obtain ⟨tau, h1, h2⟩ := ht
  rw [show t + res = tau by linarith]
  split_ifs at h1 with h3
  · have hx1 := series_above l1 h1
    by_cases h1x : x = 1
    · subst h1x
      have ht := series_one h1
      have he := eta_pos (x := 1) l1
      refine reach_of hx hdm hmu 1 hz (phi := 0) (c2 := 1 / 2) (c3 := 1 / 6)
        (p := computeY 1 (izzoLambda dm r1 r2) - izzoLambda dm r1 r2 * 1) (Or.inr (Or.inl ⟨rfl, rfl, rfl⟩)) he ?_ ?_ ?_ hv
      · rw [div_self he.ne']; norm_num
      · rw [div_self he.ne', computeY_one]; ring
      · rw [ht, computeY_one]; ring
    · have := series_eq_closed l1 hx1 h1x h1
      exact closed_reach hx hdm hmu hz (Or.inr rfl) this hv
  · exact closed_reach hx hdm hmu hz hm h1 hv

end Verif.Lambert
