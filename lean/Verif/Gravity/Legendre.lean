import Mathlib.Algebra.Polynomial.Derivative
import Mathlib.Algebra.Polynomial.Eval.SMul
import Mathlib.Analysis.SpecialFunctions.Sqrt
import Mathlib.Data.Nat.Factorial.Basic
import Mathlib.Tactic.LinearCombination
import Mathlib.Tactic.FieldSimp

/-!
# Legendre polynomials

The specification of the geopotential needs the polynomials of Legendre, here by the formula of
Rodrigues, and their derivatives. Nothing in this file is part of the model of the code.
-/
namespace Verif.Gravity
open Polynomial

/-- Legendre polynomial of degree `n`, by the formula of Rodrigues: (1/(2ⁿ n!)) dⁿ/dxⁿ (x² − 1)ⁿ. -/
noncomputable def legendre (n : ℕ) : ℝ[X] :=
  C (1 / (2 ^ n * n.factorial : ℝ)) * derivative^[n] ((X ^ 2 - 1) ^ n)

/-- Its `m`-th derivative: the associated function without the factor (1 − x²)^(m/2). -/
noncomputable def assoc (n m : ℕ) : ℝ[X] := derivative^[m] (legendre n)

theorem iter_mul_X (k : ℕ) (p : ℝ[X]) :
    derivative^[k + 1] (X * p) = X * derivative^[k + 1] p + (k + 1 : ℝ[X]) * derivative^[k] p := by
  rw [mul_comm X p, iterate_derivative_mul_X, nsmul_eq_mul, Nat.add_sub_cancel]
  push_cast
  ring

theorem iter_mul_X' (k : ℕ) (p : ℝ[X]) :
    derivative^[k] (X * p) = X * derivative^[k] p + (k : ℝ[X]) * derivative^[k - 1] p := by
  cases k with
  | zero => simp
  | succ k =>
    rw [iter_mul_X]
    push_cast
    rfl

/-- (X² − 1)ⁿ -/
noncomputable def base (n : ℕ) : ℝ[X] := (X ^ 2 - 1) ^ n

theorem base_deriv (n : ℕ) : derivative (base (n + 1)) = C (2 * (n + 1 : ℝ)) * (X * base n) := by
  unfold base
  rw [derivative_pow_succ]
  simp only [derivative_sub, derivative_X_sq, derivative_one, sub_zero, map_mul, map_ofNat]
  ring

theorem legendre_zero : legendre 0 = 1 := by simp [legendre]

/-- P_{n+1} = X P_n + (n/(2ⁿ n!)) dⁿ⁻¹ -/
theorem legendre_succ (n : ℕ) :
    legendre (n + 1) = X * legendre n + C (1 / (2 ^ n * n.factorial : ℝ)) * ((n : ℝ[X]) * derivative^[n - 1] (base n)) := by
  have h1 : derivative^[n + 1] (base (n + 1)) = C (2 * (n + 1 : ℝ)) *
      (X * derivative^[n] (base n) + (n : ℝ[X]) * derivative^[n - 1] (base n)) := by
    rw [Function.iterate_succ_apply, base_deriv, iterate_derivative_C_mul, iter_mul_X']
  have h2 : (C (1 / (2 ^ (n + 1) * (n + 1).factorial : ℝ)) * C (2 * (n + 1 : ℝ)) : ℝ[X]) =
      C (1 / (2 ^ n * n.factorial : ℝ)) := by
    rw [← C_mul]
    congr 1
    have hf : (n.factorial : ℝ) ≠ 0 := by exact_mod_cast n.factorial_ne_zero
    have hn : (n + 1 : ℝ) ≠ 0 := by positivity
    rw [Nat.factorial_succ]
    push_cast
    rw [pow_succ]
    field_simp
  show C _ * derivative^[n + 1] (base (n + 1)) = X * (C _ * derivative^[n] (base n)) + _
  rw [h1, ← mul_assoc, h2]
  ring

/-- P'_{n+1} = (n + 1) P_n + X P'_n -/
theorem legendre_deriv_succ (n : ℕ) :
    derivative (legendre (n + 1)) = (n + 1 : ℝ[X]) * legendre n + X * derivative (legendre n) := by
  rw [legendre_succ]
  cases n with
  | zero => simp [legendre_zero]
  | succ k =>
    rw [derivative_add, derivative_mul, derivative_C_mul, derivative_mul, derivative_natCast]
    simp only [Nat.add_sub_cancel, derivative_X, one_mul, zero_mul, zero_add]
    rw [← Function.iterate_succ_apply' derivative k]
    simp only [legendre, base]
    push_cast
    ring

/-- (X² − 1) dⁿ⁺¹ = n (n + 1) dⁿ⁻¹ of (X² − 1)ⁿ, for n = k + 1 -/
theorem base_equation (k : ℕ) : (X ^ 2 - 1) * derivative^[k + 2] (base (k + 1)) =
    ((k + 1) * (k + 2) : ℝ[X]) * derivative^[k] (base (k + 1)) := by
  have h : X * (X * derivative (base (k + 1))) - derivative (base (k + 1)) =
      C (2 * (k + 1 : ℝ)) * (X * base (k + 1)) := by
    rw [base_deriv]
    unfold base
    ring
  have h2 := congrArg (derivative^[k + 1]) h
  rw [iterate_derivative_sub, iter_mul_X, iter_mul_X, iterate_derivative_C_mul, iter_mul_X, iter_mul_X'] at h2
  simp only [← Function.iterate_succ_apply derivative] at h2
  have h3 : (k : ℝ[X]) * derivative^[(k - 1).succ] (base (k + 1)) = (k : ℝ[X]) * derivative^[k] (base (k + 1)) := by
    cases k with
    | zero => simp
    | succ k => rfl
  have h4 : (C (2 * (k + 1 : ℝ)) : ℝ[X]) = 2 * (k + 1) := by
    simp [map_ofNat C 2]
  rw [h4] at h2
  have e1 : (k + 1).succ = k + 2 := rfl
  have e2 : k.succ = k + 1 := rfl
  rw [e1, e2] at h2
  linear_combination h2 - (k + 1 : ℝ[X]) * h3

/-- (n + 1) P_{n+1} = (n + 1) X P_n + (X² − 1) P'_n -/
theorem legendre_succ' (n : ℕ) : (n + 1 : ℝ[X]) * legendre (n + 1) =
    (n + 1 : ℝ[X]) * (X * legendre n) + (X ^ 2 - 1) * derivative (legendre n) := by
  rw [legendre_succ]
  cases n with
  | zero => simp [legendre_zero]
  | succ k =>
    have h := base_equation k
    have e : derivative (legendre (k + 1)) = C (1 / (2 ^ (k + 1) * (k + 1).factorial : ℝ)) * derivative^[k + 2] (base (k + 1)) := by
      unfold legendre
      rw [derivative_C_mul, ← Function.iterate_succ_apply' derivative]
      rfl
    rw [e]
    simp only [Nat.add_sub_cancel]
    push_cast
    linear_combination -(C (1 / (2 ^ (k + 1) * (k + 1).factorial : ℝ)) : ℝ[X]) * h

/-- X P'_{n+1} − P'_n = (n + 1) P_{n+1} -/
theorem legendre_deriv_pred (n : ℕ) :
    X * derivative (legendre (n + 1)) - derivative (legendre n) = (n + 1 : ℝ[X]) * legendre (n + 1) := by
  rw [legendre_succ', legendre_deriv_succ]
  ring

/-- The recursion of Bonnet. -/
theorem legendre_bonnet (n : ℕ) : (n + 2 : ℝ[X]) * legendre (n + 2) =
    (2 * n + 3 : ℝ[X]) * (X * legendre (n + 1)) - (n + 1 : ℝ[X]) * legendre n := by
  have h1 := legendre_succ' (n + 1)
  have h2 := legendre_deriv_pred n
  have h3 := legendre_deriv_succ n
  push_cast at h1
  linear_combination h1 + X * h2 - h3

/-- P'_{n+2} − P'_n = (2n + 3) P_{n+1} -/
theorem legendre_deriv_diff (n : ℕ) :
    derivative (legendre (n + 2)) - derivative (legendre n) = (2 * n + 3 : ℝ[X]) * legendre (n + 1) := by
  have h1 := legendre_deriv_succ (n + 1)
  have h2 := legendre_deriv_pred n
  push_cast at h1
  linear_combination h1 + h2

theorem assoc_succ (n m : ℕ) : derivative (assoc n m) = assoc n (m + 1) := by
  unfold assoc
  rw [Function.iterate_succ_apply']

theorem iter_natCast_mul (a : ℝ[X]) (c : ℝ) (ha : a = C c) (k : ℕ) (p : ℝ[X]) :
    derivative^[k] (a * p) = a * derivative^[k] p := by
  rw [ha, iterate_derivative_C_mul]

/-- (n + m + 1) P_n⁽ᵐ⁾ + X P_n⁽ᵐ⁺¹⁾ = P_{n+1}⁽ᵐ⁺¹⁾ -/
theorem assoc_up (n m : ℕ) :
    assoc (n + 1) (m + 1) = (n + m + 1 : ℝ[X]) * assoc n m + X * assoc n (m + 1) := by
  have h := congrArg (derivative^[m]) (legendre_deriv_succ n)
  rw [iterate_map_add derivative, iter_natCast_mul (n + 1 : ℝ[X]) (n + 1) (by simp), iter_mul_X'] at h
  simp only [← Function.iterate_succ_apply derivative] at h
  have h3 : (m : ℝ[X]) * derivative^[(m - 1).succ] (legendre n) = (m : ℝ[X]) * derivative^[m] (legendre n) := by
    cases m with
    | zero => simp
    | succ k => rfl
  show derivative^[m.succ] (legendre (n + 1)) = _ * derivative^[m] (legendre n) + X * derivative^[m.succ] (legendre n)
  rw [h]
  linear_combination h3

/-- (n + 2 − m) P_{n+2}⁽ᵐ⁾ = (2n + 3) X P_{n+1}⁽ᵐ⁾ − (n + 1 + m) P_n⁽ᵐ⁾ -/
theorem assoc_three (n m : ℕ) : (n + 2 - m : ℝ[X]) * assoc (n + 2) m =
    (2 * n + 3 : ℝ[X]) * (X * assoc (n + 1) m) - (n + 1 + m : ℝ[X]) * assoc n m := by
  have h := congrArg (derivative^[m]) (legendre_bonnet n)
  rw [iterate_derivative_sub, iter_natCast_mul (n + 2 : ℝ[X]) (n + 2) (by simp [map_ofNat C 2]),
    iter_natCast_mul (2 * n + 3 : ℝ[X]) (2 * n + 3) (by simp [map_ofNat C 2, map_ofNat C 3]), iter_natCast_mul (n + 1 : ℝ[X]) (n + 1) (by simp), iter_mul_X'] at h
  have h2 : (m : ℝ[X]) * ((2 * n + 3 : ℝ[X]) * derivative^[m - 1] (legendre (n + 1))) =
      m * (derivative^[m] (legendre (n + 2)) - derivative^[m] (legendre n)) := by
    cases m with
    | zero => simp
    | succ k =>
      have h := congrArg (derivative^[k]) (legendre_deriv_diff n)
      rw [iterate_derivative_sub, iter_natCast_mul (2 * n + 3 : ℝ[X]) (2 * n + 3) (by simp [map_ofNat C 2, map_ofNat C 3])] at h
      simp only [← Function.iterate_succ_apply derivative] at h
      rw [Nat.add_sub_cancel, ← h]
  unfold assoc
  linear_combination h + h2

theorem assoc_zero (n : ℕ) : assoc n 0 = legendre n := rfl

/-- Derivatives of order greater than the degree vanish. -/
theorem assoc_above (n m : ℕ) (h : n < m) : assoc n m = 0 := by
  induction n generalizing m with
  | zero =>
    obtain ⟨k, rfl⟩ : ∃ k, m = k + 1 := ⟨m - 1, by omega⟩
    unfold assoc
    rw [legendre_zero, Function.iterate_succ_apply, derivative_one]
    simp
  | succ n ih =>
    obtain ⟨k, rfl⟩ : ∃ k, m = k + 1 := ⟨m - 1, by omega⟩
    rw [assoc_up, ih k (by omega), ih (k + 1) (by omega)]
    simp

theorem assoc_diag (n : ℕ) : assoc (n + 1) (n + 1) = (2 * n + 1 : ℝ[X]) * assoc n n := by
  rw [assoc_up, assoc_above n (n + 1) (by omega)]
  ring

theorem assoc_off (n : ℕ) : assoc (n + 1) n = (2 * n + 1 : ℝ[X]) * (X * assoc n n) := by
  cases n with
  | zero =>
    rw [assoc_zero, assoc_zero, legendre_succ]
    simp
  | succ k =>
    have h := assoc_three k (k + 1)
    rw [assoc_above k (k + 1) (by omega)] at h
    push_cast at h ⊢
    linear_combination h

end Verif.Gravity
