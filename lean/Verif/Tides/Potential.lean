import Verif.Tides.Field

/-!
The potential of the solid tides: the addition theorem for the degrees 2 and 3.
-/
namespace Verif.Tides
open Verif.MathU Matrix Polynomial
open Verif.Gravity (Mat loop cdiv legendre potential surface unit har har_eq pw loop_inv get_eq set_eq)

/-! ### Specification -/

/-- The Legendre polynomials of degree 2 and 3. -/
noncomputable def p2 (x : ℝ) : ℝ := (3 * x ^ 2 - 1) / 2
noncomputable def p3 (x : ℝ) : ℝ := (5 * x ^ 3 - 3 * x) / 2

/-- A body that raises a tide: gravitational parameter, position in the frame of the tides, and whether the degree 3 is used. -/
structure Body where
  mu : ℝ
  pos : V3
  degree3 : Bool

/-- Specification: the potential at `q` of the tide that a body raises on a sphere of this radius, with the numbers of Love. -/
noncomputable def tidal (k2 k3 radius : ℝ) (b : Body) (q : V3) : ℝ :=
  let x := q ⬝ᵥ b.pos / (nrm q * nrm b.pos)
  k2 * b.mu * radius ^ 5 / (nrm b.pos ^ 3 * nrm q ^ 3) * p2 x +
    if b.degree3 then k3 * b.mu * radius ^ 7 / (nrm b.pos ^ 4 * nrm q ^ 4) * p3 x else 0

/-! ### Legendre polynomials -/

theorem legendre_one : legendre 1 = X := by
  have h := Gravity.legendre_succ' 0
  simp [Gravity.legendre_zero] at h
  exact h

theorem legendre_two : 2 * legendre 2 = 3 * X ^ 2 - 1 := by
  have h := Gravity.legendre_bonnet 0
  rw [legendre_one, Gravity.legendre_zero] at h
  push_cast at h
  linear_combination h

theorem legendre_three : 2 * legendre 3 = 5 * X ^ 3 - 3 * X := by
  have h := Gravity.legendre_bonnet 1
  have h2 := legendre_two
  rw [legendre_one] at h
  push_cast at h
  have h3 : (3 : ℝ[X]) * (2 * legendre 3) = 3 * (5 * X ^ 3 - 3 * X) := by
    linear_combination 2 * h + 5 * X * h2
  exact mul_left_cancel₀ (by norm_num) h3

theorem eval_two (u : ℝ) : (derivative^[0] (legendre 2)).eval u = (3 * u ^ 2 - 1) / 2 ∧ (derivative^[1] (legendre 2)).eval u = 3 * u ∧
    (derivative^[2] (legendre 2)).eval u = 3 := by
  have h0 := congrArg (fun p => eval u (derivative^[0] p)) legendre_two
  have h1 := congrArg (fun p => eval u (derivative^[1] p)) legendre_two
  have h2 := congrArg (fun p => eval u (derivative^[2] p)) legendre_two
  simp [Function.iterate_succ_apply'] at h0 h1 h2
  simp only [Function.iterate_succ_apply', Function.iterate_zero_apply]
  exact ⟨by linarith, by linarith, by linarith⟩

theorem eval_three (u : ℝ) : (derivative^[0] (legendre 3)).eval u = (5 * u ^ 3 - 3 * u) / 2 ∧
    (derivative^[1] (legendre 3)).eval u = (15 * u ^ 2 - 3) / 2 ∧
    (derivative^[2] (legendre 3)).eval u = 15 * u ∧ (derivative^[3] (legendre 3)).eval u = 15 := by
  have h0 := congrArg (fun p => eval u (derivative^[0] p)) legendre_three
  have h1 := congrArg (fun p => eval u (derivative^[1] p)) legendre_three
  have h2 := congrArg (fun p => eval u (derivative^[2] p)) legendre_three
  have h3 := congrArg (fun p => eval u (derivative^[3] p)) legendre_three
  simp [Function.iterate_succ_apply'] at h0 h1 h2 h3
  simp only [Function.iterate_succ_apply', Function.iterate_zero_apply]
  exact ⟨by linarith, by linarith, by linarith, by linarith⟩

theorem units : unit 2 0 = Real.sqrt 5 ∧ unit 2 1 = Real.sqrt (5 / 3) ∧ unit 2 2 = Real.sqrt (5 / 12) ∧ unit 3 0 = Real.sqrt 7 ∧
    unit 3 1 = Real.sqrt (7 / 6) ∧ unit 3 2 = Real.sqrt (7 / 60) ∧ unit 3 3 = Real.sqrt (7 / 360) := by
  refine ⟨?_, ?_, ?_, ?_, ?_, ?_, ?_⟩ <;> unfold unit <;> congr 1 <;> norm_num [Nat.factorial]

/-! ### The addition theorem -/

theorem degree_two (c s t u s' t' u' cp cl sl : ℝ) (h1 : cp * cl = s') (h2 : cp * sl = t') (h3 : cp ^ 2 = s' ^ 2 + t' ^ 2)
    (h4 : s' ^ 2 + t' ^ 2 + u' ^ 2 = 1) (h5 : s ^ 2 + t ^ 2 + u ^ 2 = 1) :
    Real.sqrt 5 * ((3 * u ^ 2 - 1) / 2) * har (c * pnm u' cp 2 0 * 1) (c * pnm u' cp 2 0 * 0) s t 0 +
    Real.sqrt (5 / 3) * (3 * u) * har (c * pnm u' cp 2 1 * cl) (c * pnm u' cp 2 1 * sl) s t 1 +
    Real.sqrt (5 / 12) * 3 * har (c * pnm u' cp 2 2 * (cl ^ 2 - sl ^ 2)) (c * pnm u' cp 2 2 * (2 * sl * cl)) s t 2 =
      c * 5 * p2 (s * s' + t * t' + u * u') := by
  have q1 := Real.mul_self_sqrt (show (0 : ℝ) ≤ 5 by norm_num)
  have q2 := Real.mul_self_sqrt (show (0 : ℝ) ≤ 5 / 3 by norm_num)
  have q3 := Real.mul_self_sqrt (show (0 : ℝ) ≤ 5 / 12 by norm_num)
  have a1 : cp ^ 2 * (cl ^ 2 - sl ^ 2) = s' ^ 2 - t' ^ 2 := by rw [← h1, ← h2]; ring
  have a2 : cp ^ 2 * (2 * sl * cl) = 2 * s' * t' := by rw [← h1, ← h2]; ring
  simp only [har, pw, pnm, p2, id]
  have e0 : u' ^ 2 = 1 - s' ^ 2 - t' ^ 2 := by linarith
  have e1 : u ^ 2 = 1 - s ^ 2 - t ^ 2 := by linarith
  have l1 : ∀ A : ℝ, Real.sqrt 5 * ((3 * u ^ 2 - 1) / 2) * (c * (1 / 2 * (3 * u' ^ 2 - 1) * Real.sqrt 5) * 1 * 1 +
      c * (1 / 2 * (3 * u' ^ 2 - 1) * Real.sqrt 5) * 0 * 0) = 5 * (((3 * u ^ 2 - 1) / 2) * (c * (1 / 2 * (3 * u' ^ 2 - 1)))) := by
    intro A
    linear_combination (((3 * u ^ 2 - 1) / 2) * (c * (1 / 2 * (3 * u' ^ 2 - 1)))) * q1
  rw [l1 0]
  have l2 : Real.sqrt (5 / 3) * (3 * u) * (c * (3 * u' * cp * Real.sqrt (5 / 3)) * cl * (s * 1 - t * 0) +
      c * (3 * u' * cp * Real.sqrt (5 / 3)) * sl * (s * 0 + t * 1)) = 5 / 3 * (3 * u) * (c * (3 * u') * (s' * s + t' * t)) := by
    rw [← h1, ← h2]
    linear_combination ((3 * u) * (c * (3 * u') * (cp * cl * s + cp * sl * t))) * q2
  rw [l2]
  have l3 : Real.sqrt (5 / 12) * 3 * (c * (3 * cp ^ 2 * Real.sqrt (5 / 12)) * (cl ^ 2 - sl ^ 2) *
        (s * (s * 1 - t * 0) - t * (s * 0 + t * 1)) +
      c * (3 * cp ^ 2 * Real.sqrt (5 / 12)) * (2 * sl * cl) * (s * (s * 0 + t * 1) + t * (s * 1 - t * 0))) =
      5 / 12 * 3 * (c * 3 * ((s' ^ 2 - t' ^ 2) * (s ^ 2 - t ^ 2) + 2 * s' * t' * (2 * s * t))) := by
    rw [← a1, ← a2]
    linear_combination (3 * (c * 3 * (cp ^ 2 * (cl ^ 2 - sl ^ 2) * (s ^ 2 - t ^ 2) + cp ^ 2 * (2 * sl * cl) * (2 * s * t)))) * q3
  rw [l3, e0, e1]
  have f : u ^ 2 * u' ^ 2 = (1 - s ^ 2 - t ^ 2) * (1 - s' ^ 2 - t' ^ 2) := by rw [e0, e1]
  linear_combination (-15 / 2 * c) * f

theorem har_three (c v s t : ℝ) : har c v s t 3 = c * (s * (s ^ 2 - 3 * t ^ 2)) + v * (t * (3 * s ^ 2 - t ^ 2)) := by
  simp only [har, pw, id]
  ring

theorem degree_three (c s t u s' t' u' cp cl sl : ℝ) (h1 : cp * cl = s') (h2 : cp * sl = t')
    (h4 : s' ^ 2 + t' ^ 2 + u' ^ 2 = 1) (h5 : s ^ 2 + t ^ 2 + u ^ 2 = 1) :
    Real.sqrt 7 * ((5 * u ^ 3 - 3 * u) / 2) * har (c * pnm u' cp 3 0 * 1) (c * pnm u' cp 3 0 * 0) s t 0 +
    Real.sqrt (7 / 6) * ((15 * u ^ 2 - 3) / 2) * har (c * pnm u' cp 3 1 * cl) (c * pnm u' cp 3 1 * sl) s t 1 +
    Real.sqrt (7 / 60) * (15 * u) * har (c * pnm u' cp 3 2 * (cl ^ 2 - sl ^ 2)) (c * pnm u' cp 3 2 * (2 * sl * cl)) s t 2 +
    Real.sqrt (7 / 360) * 15 * har (c * pnm u' cp 3 3 * (cl * (cl ^ 2 - 3 * sl ^ 2))) (c * pnm u' cp 3 3 * (sl * (3 * cl ^ 2 - sl ^ 2))) s t 3 =
      c * 7 * p3 (s * s' + t * t' + u * u') := by
  have q0 := Real.mul_self_sqrt (show (0 : ℝ) ≤ 7 by norm_num)
  have q1 := Real.mul_self_sqrt (show (0 : ℝ) ≤ 7 / 6 by norm_num)
  have q2 := Real.mul_self_sqrt (show (0 : ℝ) ≤ 7 / 60 by norm_num)
  have q3 := Real.mul_self_sqrt (show (0 : ℝ) ≤ 7 / 360 by norm_num)
  have l0 : Real.sqrt 7 * ((5 * u ^ 3 - 3 * u) / 2) * har (c * pnm u' cp 3 0 * 1) (c * pnm u' cp 3 0 * 0) s t 0 =
      7 * ((5 * u ^ 3 - 3 * u) / 2) * (c * ((5 * u' ^ 3 - 3 * u') / 2)) := by
    simp only [har, pw, pnm, id]
    linear_combination (((5 * u ^ 3 - 3 * u) / 2) * (c * ((5 * u' ^ 3 - 3 * u') / 2))) * q0
  have l1 : Real.sqrt (7 / 6) * ((15 * u ^ 2 - 3) / 2) * har (c * pnm u' cp 3 1 * cl) (c * pnm u' cp 3 1 * sl) s t 1 =
      7 / 6 * ((15 * u ^ 2 - 3) / 2) * (c * ((15 * u' ^ 2 - 3) / 2) * (s * s' + t * t')) := by
    simp only [har, pw, pnm, id]
    rw [← h1, ← h2]
    linear_combination (((15 * u ^ 2 - 3) / 2) * (c * ((15 * u' ^ 2 - 3) / 2) * (s * (cp * cl) + t * (cp * sl)))) * q1
  have l2 : Real.sqrt (7 / 60) * (15 * u) * har (c * pnm u' cp 3 2 * (cl ^ 2 - sl ^ 2)) (c * pnm u' cp 3 2 * (2 * sl * cl)) s t 2 =
      7 / 60 * (15 * u) * (c * (15 * u') * ((s ^ 2 - t ^ 2) * (s' ^ 2 - t' ^ 2) + 2 * s * t * (2 * s' * t'))) := by
    simp only [har, pw, pnm, id]
    rw [← h1, ← h2]
    linear_combination ((15 * u) * (c * (15 * u') * ((s ^ 2 - t ^ 2) * ((cp * cl) ^ 2 - (cp * sl) ^ 2) + 2 * s * t * (2 * (cp * cl) * (cp * sl))))) * q2
  have l3 : Real.sqrt (7 / 360) * 15 * har (c * pnm u' cp 3 3 * (cl * (cl ^ 2 - 3 * sl ^ 2))) (c * pnm u' cp 3 3 * (sl * (3 * cl ^ 2 - sl ^ 2))) s t 3 =
      7 / 360 * 15 * (c * 15 * (s * (s ^ 2 - 3 * t ^ 2) * (s' * (s' ^ 2 - 3 * t' ^ 2)) + t * (3 * s ^ 2 - t ^ 2) * (t' * (3 * s' ^ 2 - t' ^ 2)))) := by
    rw [har_three]
    simp only [pnm]
    rw [← h1, ← h2]
    linear_combination (15 * (c * 15 * (s * (s ^ 2 - 3 * t ^ 2) * ((cp * cl) * ((cp * cl) ^ 2 - 3 * (cp * sl) ^ 2)) +
      t * (3 * s ^ 2 - t ^ 2) * ((cp * sl) * (3 * (cp * cl) ^ 2 - (cp * sl) ^ 2))))) * q3
  rw [l0, l1, l2, l3]
  simp only [p3]
  have e0 : u' ^ 2 = 1 - s' ^ 2 - t' ^ 2 := by linarith
  have e1 : u ^ 2 = 1 - s ^ 2 - t ^ 2 := by linarith
  have f1 : u ^ 3 = u * (1 - s ^ 2 - t ^ 2) := by rw [← e1]; ring
  have f2 : u' ^ 3 = u' * (1 - s' ^ 2 - t' ^ 2) := by rw [← e0]; ring
  have g : (s * s' + t * t' + u * u') ^ 3 = (s * s' + t * t') ^ 3 + 3 * (s * s' + t * t') ^ 2 * (u * u') +
      3 * (s * s' + t * t') * (u ^ 2 * u' ^ 2) + u ^ 3 * u' ^ 3 := by ring
  rw [g, f1, f2, e0, e1]
  ring

end Verif.Tides
