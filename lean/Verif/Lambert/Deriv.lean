import Verif.Lambert.IzzoExamples
import Mathlib.Analysis.SpecialFunctions.Trigonometric.InverseDeriv
import Mathlib.Analysis.SpecialFunctions.Sqrt
/-!
The derivatives of the time of flight that the iterations of the solver of Izzo use, and the values that
`LambertSolution` reports.
-/
namespace Verif.Lambert
open Matrix
open Verif.MathU (V3 nrm atan2 dot3 nrm_sq nrm_nonneg ext3 cross0 cross1 cross2)

/-- The time of flight of `m` revolutions as a function of `x` (specification): the closed form of Lancaster and
Blanchard, elliptic below 1 and hyperbolic above. -/
noncomputable def flight (l : ℝ) (m : Nat) (x : ℝ) : ℝ :=
  if x < 1 then ((Real.arccos (x * Real.sqrt (1 - l ^ 2 * (1 - x ^ 2)) + l * (1 - x ^ 2)) + m * Real.pi) /
      Real.sqrt (1 - x ^ 2) - x + l * Real.sqrt (1 - l ^ 2 * (1 - x ^ 2))) / (1 - x ^ 2)
  else ((Real.arsinh ((Real.sqrt (1 - l ^ 2 * (1 - x ^ 2)) - l * x) * Real.sqrt (x ^ 2 - 1)) + m * Real.pi) /
      Real.sqrt (x ^ 2 - 1) - x + l * Real.sqrt (1 - l ^ 2 * (1 - x ^ 2))) / (1 - x ^ 2)

/-- The closed form of the code is that function. -/
theorem tofClosed_eq {l x : ℝ} (m : Nat) (h1 : -1 < x) (h2 : x ≠ 1) :
    tofClosed x (computeY x l) l m = some (flight l m x) := by
  rw [tofClosed, if_neg (not_le.2 h1), if_neg h2, flight, computePsi, computeY]
  rcases lt_or_gt_of_ne h2 with h | h
  · rw [if_neg (not_lt.2 h.le), if_pos h, if_pos h, abs_of_pos (by nlinarith)]
  · rw [if_pos h, if_neg (not_lt.2 h.le), abs_of_neg (by nlinarith), neg_sub]
    congr 8
    ring

/-- The equation of the time of flight is that function minus the time asked for, whether the code uses the series or
the closed form. -/
theorem tofEquation_eq {l x t res : ℝ} {m : Nat} (hl : l ^ 2 < 1) (hx : x ≠ 1)
    (h : tofEquation x t l m = some res) : -1 < x ∧ res = flight l m x - t := by
  rw [tofEquation, tofEquationY, Option.map_eq_some_iff] at h
  obtain ⟨tau, h1, h2⟩ := h
  split_ifs at h1 with h3
  · have hx1 := series_above hl h1
    have h4 := series_eq_closed hl hx1 hx h1
    rw [tofClosed_eq 0 hx1 hx, Option.some.injEq] at h4
    rw [← h2, h3.1, h4]
    exact ⟨hx1, rfl⟩
  · have hx1 : -1 < x := by
      by_contra hn
      rw [tofClosed, if_pos (not_lt.1 hn)] at h1
      cases h1
    rw [tofClosed_eq m hx1 hx, Option.some.injEq] at h1
    exact ⟨hx1, by rw [← h2, h1]⟩

theorem y_deriv {l x : ℝ} (hl : l ^ 2 < 1) :
    HasDerivAt (fun x => Real.sqrt (1 - l ^ 2 * (1 - x ^ 2))) (l ^ 2 * x / Real.sqrt (1 - l ^ 2 * (1 - x ^ 2))) x := by
  have hp : 0 < 1 - l ^ 2 * (1 - x ^ 2) := by nlinarith [mul_nonneg (sq_nonneg l) (sq_nonneg x)]
  have h1 : HasDerivAt (fun x : ℝ => 1 - l ^ 2 * (1 - x ^ 2)) (2 * (l ^ 2 * x)) x := by
    refine hd ((((hasDerivAt_pow 2 x).const_sub 1).const_mul (l ^ 2)).const_sub 1) ?_
    push_cast; ring
  refine hd (h1.sqrt hp.ne') ?_
  rw [mul_div_mul_left _ _ two_ne_zero]

theorem y_pos {l x : ℝ} (hl : l ^ 2 < 1) : 0 < Real.sqrt (1 - l ^ 2 * (1 - x ^ 2)) :=
  Real.sqrt_pos.2 (by nlinarith [mul_nonneg (sq_nonneg l) (sq_nonneg x)])

/-- **First derivative.** -/
theorem flight_deriv {l x : ℝ} (hl : l ^ 2 < 1) (hx1 : -1 < x) (hx : x ≠ 1) (m : Nat) :
    HasDerivAt (flight l m) (tofP x (computeY x l) (flight l m x) l) x := by
  have hyp := y_pos (x := x) hl
  have hy2 := computeY_sq (x := x) hl.le
  have he := eta_pos (x := x) hl
  have hyd := y_deriv (x := x) hl
  rcases lt_or_gt_of_ne hx with h | h
  · have hq : 0 < 1 - x ^ 2 := by nlinarith
    have hsq : Real.sqrt (1 - x ^ 2) ^ 2 = 1 - x ^ 2 := Real.sq_sqrt hq.le
    have hqp := Real.sqrt_pos.2 hq
    obtain ⟨e1, e2, e3, e4⟩ := psi_elliptic hx1 h hy2 he
    have hps : computePsi x (computeY x l) l = Real.arccos (x * computeY x l + l * (1 - x ^ 2)) := by
      rw [computePsi, if_neg (not_lt.2 h.le), if_pos h]
    have hC : (x * computeY x l + l * (1 - x ^ 2)) ^ 2 = 1 - (Real.sqrt (1 - x ^ 2) * (computeY x l - l * x)) ^ 2 := by
      rw [mul_pow, hsq]; linear_combination hy2
    have hne : x * computeY x l + l * (1 - x ^ 2) ≠ -1 ∧ x * computeY x l + l * (1 - x ^ 2) ≠ 1 := by
      constructor <;> intro h' <;> rw [h'] at hC <;>
        nlinarith [mul_pos hqp he]
    have hcd : HasDerivAt (fun x => x * Real.sqrt (1 - l ^ 2 * (1 - x ^ 2)) + l * (1 - x ^ 2))
        (computeY x l + x * (l ^ 2 * x / computeY x l) + l * (-(2 * x))) x := by
      refine hd (((hasDerivAt_id x).mul hyd).add (((hasDerivAt_pow 2 x).const_sub 1).const_mul l)) ?_
      simp only [computeY, id]; push_cast; ring
    have hpd : HasDerivAt (fun x => Real.arccos (x * Real.sqrt (1 - l ^ 2 * (1 - x ^ 2)) + l * (1 - x ^ 2)))
        (-((computeY x l - l * x) / (computeY x l * Real.sqrt (1 - x ^ 2)))) x := by
      have hac := HasDerivAt.comp (h₂ := Real.arccos)
        (h := fun x => x * Real.sqrt (1 - l ^ 2 * (1 - x ^ 2)) + l * (1 - x ^ 2)) x
        (Real.hasDerivAt_arccos hne.1 hne.2) hcd
      refine hd hac ?_
      rw [show Real.sqrt (1 - l ^ 2 * (1 - x ^ 2)) = computeY x l from rfl, hC, sub_sub_cancel,
        Real.sqrt_sq (by positivity)]
      have hy' : 0 < computeY x l := hyp
      have hnum : computeY x l + x * (l ^ 2 * x / computeY x l) + l * -(2 * x) =
          (computeY x l - l * x) ^ 2 / computeY x l := by field_simp; ring
      rw [hnum]
      generalize computeY x l - l * x = e at *
      field_simp
    have hqd : HasDerivAt (fun x : ℝ => 1 - x ^ 2) (-(2 * x)) x := by
      refine hd ((hasDerivAt_pow 2 x).const_sub 1) ?_
      push_cast; ring
    have hqd' : HasDerivAt (fun x : ℝ => Real.sqrt (1 - x ^ 2)) (-(2 * x) / (2 * Real.sqrt (1 - x ^ 2))) x :=
      hqd.sqrt hq.ne'
    have hT := (((((hpd.add_const ((m : ℝ) * Real.pi)).div hqd' hqp.ne').sub (hasDerivAt_id x)).add
      (hyd.const_mul l)).div hqd hq.ne')
    refine HasDerivAt.congr_of_eventuallyEq (hd hT ?_) ?_
    · simp only [id, Pi.add_apply, Pi.sub_apply, Pi.div_apply]
      rw [tofP, flight, if_pos h]
      have hyc : computeY x l = Real.sqrt (1 - l ^ 2 * (1 - x ^ 2)) := rfl
      rw [← hyc]
      have hy' : 0 < computeY x l := hyp
      rw [← hps]
      generalize computePsi x (computeY x l) l + m * Real.pi = P
      generalize computeY x l = y at *
      have hy3 : y ^ 2 = 1 - l ^ 2 * Real.sqrt (1 - x ^ 2) ^ 2 := by rw [hsq]; exact hy2
      have hsq' := hsq
      generalize hqq : Real.sqrt (1 - x ^ 2) = q at *
      rw [← hsq]
      have k : x * (x - l * y) * y - (y - l * x) = q ^ 2 * (-y + l ^ 3 * x) := by
        linear_combination y * hsq - l * x * hy3
      field_simp
      linear_combination q * k
    · filter_upwards [eventually_lt_nhds h] with z hz
      rw [flight, if_pos hz]
      rfl
  · have hq : 0 < x ^ 2 - 1 := by nlinarith
    have hsq : Real.sqrt (x ^ 2 - 1) ^ 2 = x ^ 2 - 1 := Real.sq_sqrt hq.le
    have hqp := Real.sqrt_pos.2 hq
    obtain ⟨e1, e2, e3⟩ := psi_hyperbolic h hy2 (Real.sqrt_nonneg _) he
    have hps : computePsi x (computeY x l) l = Real.arsinh ((computeY x l - l * x) * Real.sqrt (x ^ 2 - 1)) := by
      rw [computePsi, if_pos h]; congr 1; ring
    have hqd0 : HasDerivAt (fun x : ℝ => x ^ 2 - 1) (2 * x) x := by
      refine hd ((hasDerivAt_pow 2 x).sub_const 1) ?_
      push_cast; ring
    have hqd' : HasDerivAt (fun x : ℝ => Real.sqrt (x ^ 2 - 1)) (2 * x / (2 * Real.sqrt (x ^ 2 - 1))) x :=
      hqd0.sqrt hq.ne'
    have hqd : HasDerivAt (fun x : ℝ => 1 - x ^ 2) (-(2 * x)) x := by
      refine hd ((hasDerivAt_pow 2 x).const_sub 1) ?_
      push_cast; ring
    have hed : HasDerivAt (fun x => Real.sqrt (1 - l ^ 2 * (1 - x ^ 2)) - l * x) (l ^ 2 * x / computeY x l - l) x := by
      refine hd (hyd.sub ((hasDerivAt_id x).const_mul l)) ?_
      rw [mul_one]; rfl
    have hpd : HasDerivAt (fun x => Real.arsinh ((Real.sqrt (1 - l ^ 2 * (1 - x ^ 2)) - l * x) * Real.sqrt (x ^ 2 - 1)))
        ((computeY x l - l * x) / (computeY x l * Real.sqrt (x ^ 2 - 1))) x := by
      refine hd ((hed.mul hqd').arsinh) ?_
      have hyc : computeY x l = Real.sqrt (1 - l ^ 2 * (1 - x ^ 2)) := rfl
      rw [← hyc]
      have hC : Real.sqrt (1 + ((computeY x l - l * x) * Real.sqrt (x ^ 2 - 1)) ^ 2) =
          x * computeY x l - l * Real.sqrt (x ^ 2 - 1) ^ 2 := by
        rw [← Real.cosh_arsinh, ← hps, e1, hsq]; ring
      have hCp : 0 < x * computeY x l - l * Real.sqrt (x ^ 2 - 1) ^ 2 := by
        rw [← hC]; exact Real.sqrt_pos.2 (by positivity)
      simp only [Pi.mul_apply, ← hyc]
      rw [hC, smul_eq_mul]
      have hy' : 0 < computeY x l := hyp
      generalize computeY x l = y at *
      generalize Real.sqrt (x ^ 2 - 1) = q at *
      field_simp
      ring
    have hT := (((((hpd.add_const ((m : ℝ) * Real.pi)).div hqd' hqp.ne').sub (hasDerivAt_id x)).add
      (hyd.const_mul l)).div hqd (by linarith))
    refine HasDerivAt.congr_of_eventuallyEq (hd hT ?_) ?_
    · simp only [id, Pi.add_apply, Pi.sub_apply, Pi.div_apply]
      rw [tofP, flight, if_neg (not_lt.2 h.le)]
      have hyc : computeY x l = Real.sqrt (1 - l ^ 2 * (1 - x ^ 2)) := rfl
      rw [← hyc]
      have hy' : 0 < computeY x l := hyp
      rw [← hps]
      generalize computePsi x (computeY x l) l + m * Real.pi = P
      generalize computeY x l = y at *
      have hy3 : y ^ 2 = 1 + l ^ 2 * Real.sqrt (x ^ 2 - 1) ^ 2 := by rw [hsq]; linarith
      generalize hqq : Real.sqrt (x ^ 2 - 1) = q at *
      rw [show 1 - x ^ 2 = -q ^ 2 by rw [hsq]; ring]
      have k : x * (x - l * y) * y - (y - l * x) = -q ^ 2 * (-y + l ^ 3 * x) := by
        linear_combination -y * hsq - l * x * hy3
      field_simp
      linear_combination q * k
    · filter_upwards [eventually_gt_nhds h] with z hz
      rw [flight, if_neg (not_lt.2 hz.le)]
      rfl

/-- **Second derivative.** -/
theorem flight_deriv2 {l x : ℝ} (hl : l ^ 2 < 1) (hx1 : -1 < x) (hx : x ≠ 1) (m : Nat) :
    HasDerivAt (fun z => tofP z (computeY z l) (flight l m z) l)
      (tofP2 x (computeY x l) (flight l m x) (tofP x (computeY x l) (flight l m x) l) l) x := by
  have hy' : 0 < computeY x l := y_pos hl
  have hy2 := computeY_sq (x := x) hl.le
  have hq : 1 - x ^ 2 ≠ 0 := by
    intro h
    have h2 : (1 - x) * (1 + x) = 0 := by linarith
    rcases mul_eq_zero.1 h2 with h3 | h3
    · exact hx (by linarith)
    · linarith
  have hyd : HasDerivAt (fun x => computeY x l) (l ^ 2 * x / computeY x l) x := y_deriv hl
  have hqd : HasDerivAt (fun x : ℝ => 1 - x ^ 2) (-(2 * x)) x := by
    refine hd ((hasDerivAt_pow 2 x).const_sub 1) ?_
    push_cast; ring
  have hf := flight_deriv hl hx1 hx m
  have hT := ((((hf.const_mul 3).mul (hasDerivAt_id x)).sub_const 2).add
    (((hasDerivAt_id x).const_mul (2 * l ^ 3)).div hyd hy'.ne')).div hqd hq
  refine hd hT ?_
  simp only [id, Pi.add_apply, Pi.div_apply, Pi.mul_apply]
  generalize flight l m x = T
  have hD : tofP x (computeY x l) T l * (1 - x ^ 2) = 3 * T * x - 2 + 2 * l ^ 3 * x / computeY x l := by
    rw [tofP]; field_simp
  rw [← hD]
  generalize tofP x (computeY x l) T l = D
  rw [tofP2]
  have k : (2 * l ^ 3 * 1 * computeY x l - 2 * l ^ 3 * x * (l ^ 2 * x / computeY x l)) / computeY x l ^ 2 =
      2 * (1 - l ^ 2) * l ^ 3 / computeY x l ^ 3 := by
    generalize computeY x l = y at *
    field_simp
    linear_combination l ^ 3 * hy2
  rw [k]
  generalize 2 * (1 - l ^ 2) * l ^ 3 / computeY x l ^ 3 = K
  generalize 1 - x ^ 2 = Q at *
  field_simp
  ring

/-- **Third derivative.** -/
theorem flight_deriv3 {l x : ℝ} (hl : l ^ 2 < 1) (hx1 : -1 < x) (hx : x ≠ 1) (m : Nat) :
    HasDerivAt (fun z => tofP2 z (computeY z l) (flight l m z) (tofP z (computeY z l) (flight l m z) l) l)
      (tofP3 x (computeY x l) (tofP x (computeY x l) (flight l m x) l)
        (tofP2 x (computeY x l) (flight l m x) (tofP x (computeY x l) (flight l m x) l) l) l) x := by
  have hy' : 0 < computeY x l := y_pos hl
  have hy2 := computeY_sq (x := x) hl.le
  have hq : 1 - x ^ 2 ≠ 0 := by
    intro h
    have h2 : (1 - x) * (1 + x) = 0 := by linarith
    rcases mul_eq_zero.1 h2 with h3 | h3
    · exact hx (by linarith)
    · linarith
  have hyd : HasDerivAt (fun x => computeY x l) (l ^ 2 * x / computeY x l) x := y_deriv hl
  have hqd : HasDerivAt (fun x : ℝ => 1 - x ^ 2) (-(2 * x)) x := by
    refine hd ((hasDerivAt_pow 2 x).const_sub 1) ?_
    push_cast; ring
  have hf := flight_deriv hl hx1 hx m
  have hf2 := flight_deriv2 hl hx1 hx m
  have hT := (((hf.const_mul 3).add (((hasDerivAt_id x).const_mul 5).mul hf2)).add
    ((hasDerivAt_const x (2 * (1 - l ^ 2) * l ^ 3)).div (hyd.pow 3) (pow_pos hy' 3).ne')).div hqd hq
  refine hd hT ?_
  simp only [id, Pi.add_apply, Pi.div_apply, Pi.mul_apply, Pi.pow_apply]
  generalize flight l m x = T
  generalize tofP x (computeY x l) T l = D
  have hD : tofP2 x (computeY x l) T D l * (1 - x ^ 2) =
      3 * T + 5 * x * D + 2 * (1 - l ^ 2) * l ^ 3 / computeY x l ^ 3 := by
    rw [tofP2]; field_simp
  rw [← hD]
  generalize tofP2 x (computeY x l) T D l = E
  rw [tofP3]
  have k : (0 * computeY x l ^ 3 - 2 * (1 - l ^ 2) * l ^ 3 * (((3 : Nat) : ℝ) * computeY x l ^ (3 - 1) *
      (l ^ 2 * x / computeY x l))) / (computeY x l ^ 3) ^ 2 = -(6 * (1 - l ^ 2) * l ^ 5 * x / computeY x l ^ 5) := by
    generalize computeY x l = y at *
    push_cast
    field_simp
    ring
  rw [k]
  generalize 6 * (1 - l ^ 2) * l ^ 5 * x / computeY x l ^ 5 = K
  generalize 1 - x ^ 2 = Q at *
  field_simp
  ring

/-- One step of Householder's method of third order for the zero of `f`, from the value and three derivatives
(specification). -/
noncomputable def third (x f f' f'' f''' : ℝ) : ℝ :=
  x - f * ((f' ^ 2 - f * f'' / 2) / (f' * (f' ^ 2 - f * f'') + f''' * f ^ 2 / 6))

/-- **The step of the iteration.** Each step of `householder` that goes on is the step of the method for the function
whose zero is the solution, with its exact derivatives.
Missing from C146: `halley` (`halley_stationary_iff`), and the step at 1. -/
theorem householder_step_partial {l x t : ℝ} {m : Nat} {p : ℝ} (hl : l ^ 2 < 1) (hx : x ≠ 1)
    (h : householderStep t l m x = some (.ok p)) :
    ∃ f1 f2 f3 : ℝ → ℝ, (∀ z, -1 < z → z ≠ 1 → HasDerivAt (fun z => flight l m z - t) (f1 z) z ∧
      HasDerivAt f1 (f2 z) z ∧ HasDerivAt f2 (f3 z) z) ∧ -1 < x ∧
      p = third x (flight l m x - t) (f1 x) (f2 x) (f3 x) := by
  rw [householderStep] at h
  rcases hf : tofEquationY x (computeY x l) t l m with _ | f
  · rw [hf] at h; cases h
  · rw [hf] at h
    simp only at h
    obtain ⟨hx1, hr⟩ := tofEquation_eq (t := t) hl hx hf
    refine ⟨_, _, _, fun z hz1 hz => ⟨(flight_deriv hl hz1 hz m).sub_const t, flight_deriv2 hl hz1 hz m,
      flight_deriv3 hl hz1 hz m⟩, hx1, ?_⟩
    split_ifs at h
    · cases h
    rw [Option.some.injEq, Res.ok.injEq] at h
    rw [hr, sub_add_cancel] at h
    rw [← h, third]

/-- A value at which the iteration stays is an exact solution: the time of flight is the one asked for. -/
theorem householder_fixed {l x t : ℝ} {m : Nat} (hl : l ^ 2 < 1) (hx : x ≠ 1)
    (h : householderStep t l m x = some (.ok x)) :
    flight l m x = t ∨ tofP x (computeY x l) (flight l m x) l ^ 2 =
      (flight l m x - t) * tofP2 x (computeY x l) (flight l m x) (tofP x (computeY x l) (flight l m x) l) l / 2 := by
  rw [householderStep] at h
  rcases hf : tofEquationY x (computeY x l) t l m with _ | f
  · rw [hf] at h; cases h
  · rw [hf] at h
    simp only at h
    obtain ⟨hx1, hr⟩ := tofEquation_eq (t := t) hl hx hf
    split_ifs at h with h1 h2
    · cases h
    rw [Option.some.injEq, Res.ok.injEq] at h
    have h3 : f * ((tofP x (computeY x l) (f + t) l ^ 2 - f * tofP2 x (computeY x l) (f + t)
      (tofP x (computeY x l) (f + t) l) l / 2) / (tofP x (computeY x l) (f + t) l * (tofP x (computeY x l) (f + t) l ^ 2 -
      f * tofP2 x (computeY x l) (f + t) (tofP x (computeY x l) (f + t) l) l) + tofP3 x (computeY x l)
      (tofP x (computeY x l) (f + t) l) (tofP2 x (computeY x l) (f + t) (tofP x (computeY x l) (f + t) l) l) l * f ^ 2 /
      6)) = 0 := by linarith
    rcases mul_eq_zero.1 h3 with h4 | h4
    · left; linarith
    · right
      have hden : ∀ d : ℝ, ¬ |d| < 1 / 10 ^ 14 → d ≠ 0 := by
        rintro d hd rfl
        exact hd (by norm_num)
      rcases div_eq_zero_iff.1 h4 with h5 | h5
      · rw [hr, sub_add_cancel] at h5
        linarith
      · exact absurd h5 (hden _ h2)

/-- **False of the code.** `halley` is given the time of flight at its first value and never updates it. A value at which
the first derivative that it computes vanishes is a stationary point of the time of flight only if the time of flight there
is the one at the first value. -/
theorem halley_stationary_iff {l x t0 : ℝ} {m : Nat} (hl : l ^ 2 < 1) (hx1 : -1 < x) (hx : x ≠ 1)
    (h : tofP x (computeY x l) t0 l = 0) : HasDerivAt (flight l m) 0 x ↔ flight l m x = t0 := by
  have hq : 1 - x ^ 2 ≠ 0 := by
    intro h
    have h2 : (1 - x) * (1 + x) = 0 := by linarith
    rcases mul_eq_zero.1 h2 with h3 | h3
    · exact hx (by linarith)
    · linarith
  have h0 : x ≠ 0 := by
    rintro rfl
    rw [tofP] at h
    norm_num at h
  have hf := flight_deriv hl hx1 hx m
  rw [tofP, div_eq_zero_iff] at h
  have h1 := h.resolve_right hq
  constructor
  · intro hd0
    have := hf.unique hd0
    rw [tofP, div_eq_zero_iff] at this
    have h2 := this.resolve_right hq
    have h3 : 3 * x * (flight l m x - t0) = 0 := by linarith
    have h4 := (mul_eq_zero.1 h3).resolve_left (by simpa using h0)
    linarith
  · intro he
    refine hd hf ?_
    rw [he, tofP, h1, zero_div]

theorem least_step {l : ℝ} (hl : l ^ 2 < 1) : householderStep (leastTime l) l 0 0 = some (.ok 0) := by
  have hy : computeY 0 l = Real.sqrt (1 - l ^ 2) := by rw [computeY]; congr 1; ring
  have ht : tofEquationY 0 (computeY 0 l) (leastTime l) l 0 = some 0 := by
    rw [tofEquationY, if_neg (by norm_num), tofClosed, if_neg (by norm_num), if_neg (by norm_num), Option.map_some]
    congr 1
    rw [computePsi, if_neg (by norm_num), if_pos (by norm_num), leastTime, hy]
    norm_num
  rw [householderStep]
  simp only [ht]
  rw [if_neg (by norm_num), if_neg]
  · norm_num
  · simp only [tofP]
    norm_num

example := householder_step_partial (l := 1 / 2) (by norm_num) (by norm_num) (least_step (l := 1 / 2) (by norm_num))

example := householder_fixed (l := 1 / 2) (by norm_num) (by norm_num) (least_step (l := 1 / 2) (by norm_num))

example := halley_stationary_iff (l := 0) (x := 1 / 2) (t0 := 4 / 3) (m := 1) (by norm_num) (by norm_num) (by norm_num) (by norm_num [tofP, computeY])

end Verif.Lambert
