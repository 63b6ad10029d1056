import Verif.Rk.Stages
import Mathlib.Algebra.Module.LinearMap.End
import Mathlib.Algebra.Module.Prod
import Mathlib.Algebra.Module.Rat
import Mathlib.Tactic.Module
import Mathlib.Tactic.IntervalCases
import Mathlib.Tactic.FieldSimp
import Mathlib.Tactic.Positivity
import Mathlib.LinearAlgebra.Prod
/-!
C12, C13: exactness of a Runge Kutta step on linear problems with polynomial forcing, and conservation
of linear invariants.
-/
namespace Verif.Rk

open Finset

variable {V : Type} [AddCommGroup V] [Module ℚ V]

/-! ### Moments of a table -/

/-- The row vector `w A`. -/
def mulRow (t : Tab) (w : List ℚ) : List ℚ :=
  (List.range t.stages).map fun j => ((List.range t.stages).map fun i =>
    if j < i then w.getD i 0 * t.a i j else 0).sum

/-- The row vector `w A^r`. -/
def rowPow (t : Tab) (w : List ℚ) : Nat → List ℚ
  | 0 => w
  | r + 1 => mulRow t (rowPow t w r)

/-- `w A^r c^k`. -/
def moment (t : Tab) (w : List ℚ) (r k : Nat) : ℚ :=
  ((List.range t.stages).map fun i => (rowPow t w r).getD i 0 * t.c i ^ k).sum

/-- Coefficient of `h^(n+1) x_(n+1)` in the error of the quadrature. -/
def quadDefect (t : Tab) (w : List ℚ) (n : Nat) : ℚ := ((n : ℚ) + 1) * moment t w 0 n - 1

/-- Coefficient of `h^(r+n+2) M^(r+1) x_(n+1)` in the error. -/
def stageDefect (t : Tab) (w : List ℚ) (r n : Nat) : ℚ :=
  ((n : ℚ) + 1) * moment t w (r + 1) n - moment t w r (n + 1)

theorem rowPow_succ (t : Tab) (w : List ℚ) (r j : Nat) : (rowPow t w (r + 1)).getD j 0 =
    if j < t.stages then ∑ i ∈ range t.stages,
      (if j < i then (rowPow t w r).getD i 0 * t.a i j else 0) else 0 := by
  show (mulRow t (rowPow t w r)).getD j 0 = _
  unfold mulRow
  split
  · rename_i hj
    rw [List.getD_eq_getElem _ _ (by simpa using hj)]
    simp only [List.getElem_map, List.getElem_range]
    rfl
  · rename_i hj
    exact List.getD_eq_default _ _ (by simpa using hj)

theorem rowPow_zero (t : Tab) (w : List ℚ) : ∀ r j : Nat, t.stages ≤ j + r → j < t.stages →
    (rowPow t w r).getD j 0 = 0 ∨ r = 0 := by
  intro r
  induction r with
  | zero => intro j _ _; exact Or.inr rfl
  | succ r ih =>
    intro j h hj
    left
    rw [rowPow_succ, if_pos hj]
    refine sum_eq_zero fun i hi => ?_
    split
    · rename_i hji
      rcases ih i (by omega) (mem_range.1 hi) with h0 | h0
      · rw [h0, zero_mul]
      · subst h0
        have := mem_range.1 hi
        omega
    · rfl

/-- Exchange of the sums: `Σ_i w_i Σ_{j<i} a_ij v_j = Σ_j (w A)_j v_j`. -/
theorem sum_stages (t : Tab) (w : List ℚ) (r : Nat) (v : Nat → V) :
    ∑ i ∈ range t.stages, (rowPow t w r).getD i 0 • ∑ j ∈ range i, t.a i j • v j =
      ∑ j ∈ range t.stages, (rowPow t w (r + 1)).getD j 0 • v j := by
  have h1 : ∀ i ∈ range t.stages, (rowPow t w r).getD i 0 • ∑ j ∈ range i, t.a i j • v j =
      ∑ j ∈ range t.stages, (if j < i then (rowPow t w r).getD i 0 * t.a i j else 0) • v j := by
    intro i hi
    rw [smul_sum]
    have hsub : range i ⊆ range t.stages := range_subset_range.2 (le_of_lt (mem_range.1 hi))
    rw [← sum_subset hsub (f := fun j =>
      (if j < i then (rowPow t w r).getD i 0 * t.a i j else 0) • v j)]
    · refine sum_congr rfl fun j hj => ?_
      rw [if_pos (mem_range.1 hj), smul_smul]
    · intro j _ hj
      rw [if_neg (by simpa using hj), zero_smul]
  rw [sum_congr rfl h1, sum_comm]
  refine sum_congr rfl fun j hj => ?_
  rw [rowPow_succ, if_pos (mem_range.1 hj), sum_smul]

/-! ### One step on a linear problem with polynomial forcing -/

section linear
variable (t : Tab) (M : V →ₗ[ℚ] V) (N : Nat) (xs : Nat → V) (h : ℚ) (w : List ℚ)

/-- The polynomial with coefficients `xs`, at `τ`. -/
def poly (N : Nat) (xs : Nat → V) (τ : ℚ) : V := ∑ n ∈ range (N + 1), τ ^ n • xs n

/-- Its derivative. -/
def dpoly (N : Nat) (xs : Nat → V) (τ : ℚ) : V := ∑ n ∈ range N, (τ ^ n * ((n : ℚ) + 1)) • xs (n + 1)

theorem poly_eq (τ : ℚ) : poly N xs τ = xs 0 + ∑ n ∈ range N, τ ^ (n + 1) • xs (n + 1) := by
  unfold poly
  rw [sum_range_succ', pow_zero, one_smul, add_comm]

theorem sum_dpoly (g : Nat → ℚ) :
    ∑ i ∈ range t.stages, g i • dpoly N xs (t.c i * h) =
      ∑ n ∈ range N, (((n : ℚ) + 1) * ∑ i ∈ range t.stages, g i * t.c i ^ n) • h ^ n • xs (n + 1) := by
  simp only [dpoly, smul_sum]
  rw [sum_comm]
  refine sum_congr rfl fun n _ => ?_
  rw [mul_sum, sum_smul]
  refine sum_congr rfl fun i _ => ?_
  rw [smul_smul, smul_smul]
  congr 1
  rw [mul_pow]; ring

/-- The defects of the stages, weighted. -/
theorem sum_defects (r : Nat) :
    ∑ i ∈ range t.stages, (rowPow t w r).getD i 0 •
      (xs 0 + h • (∑ j ∈ range i, t.a i j • dpoly N xs (t.c j * h)) - poly N xs (t.c i * h)) =
    ∑ n ∈ range N, (h ^ (n + 1) * stageDefect t w r n) • xs (n + 1) := by
  have h1 : ∑ i ∈ range t.stages, (rowPow t w r).getD i 0 •
      (xs 0 + h • (∑ j ∈ range i, t.a i j • dpoly N xs (t.c j * h)) - poly N xs (t.c i * h)) =
      h • (∑ j ∈ range t.stages, (rowPow t w (r + 1)).getD j 0 • dpoly N xs (t.c j * h)) -
      ∑ i ∈ range t.stages, (rowPow t w r).getD i 0 •
        ∑ n ∈ range N, (t.c i * h) ^ (n + 1) • xs (n + 1) := by
    rw [← sum_stages, smul_sum, ← sum_sub_distrib]
    refine sum_congr rfl fun i _ => ?_
    rw [poly_eq]
    module
  rw [h1, sum_dpoly]
  have h2 : ∑ i ∈ range t.stages, (rowPow t w r).getD i 0 •
        ∑ n ∈ range N, (t.c i * h) ^ (n + 1) • xs (n + 1) =
      ∑ n ∈ range N, (h ^ (n + 1) * moment t w r (n + 1)) • xs (n + 1) := by
    simp only [smul_sum]
    rw [sum_comm]
    refine sum_congr rfl fun n _ => ?_
    unfold moment
    rw [sum_range_list, mul_sum, sum_smul]
    refine sum_congr rfl fun i _ => ?_
    rw [smul_smul]
    congr 1
    rw [mul_pow]; ring
  rw [h2, smul_sum, ← sum_sub_distrib]
  refine sum_congr rfl fun n _ => ?_
  rw [smul_smul, smul_smul, ← sub_smul]
  congr 1
  unfold stageDefect moment
  rw [sum_range_list, sum_range_list]
  ring

/-- The error of the formula with weights `w`: stages `K` of the problem `x' = M x + F(τ)`, whose
solution is the polynomial `xs`. -/
theorem linear_error (F : ℚ → V)
    (hsol : ∀ τ, dpoly N xs τ = M (poly N xs τ) + F τ) (K : Nat → V)
    (hK : ∀ i < t.stages,
      M (xs 0 + h • ∑ j ∈ range i, t.a i j • K j) + F (t.c i * h) = K i) :
    xs 0 + h • ∑ i ∈ range t.stages, w.getD i 0 • K i = poly N xs h +
      (∑ n ∈ range N, (h ^ (n + 1) * quadDefect t w n) • xs (n + 1)) +
      ∑ r ∈ range t.stages, ∑ n ∈ range N,
        (h ^ (r + n + 2) * stageDefect t w r n) • (M ^ (r + 1)) (xs (n + 1)) := by
  let e : Nat → V := fun i => xs 0 + h • (∑ j ∈ range i, t.a i j • K j) - poly N xs (t.c i * h)
  let d : Nat → V := fun i =>
    xs 0 + h • (∑ j ∈ range i, t.a i j • dpoly N xs (t.c j * h)) - poly N xs (t.c i * h)
  have hKe : ∀ i < t.stages, K i = dpoly N xs (t.c i * h) + M (e i) := by
    intro i hi
    rw [← hK i hi, hsol]
    simp only [e, map_sub]
    abel
  have he : ∀ i < t.stages, e i = d i + h • M (∑ j ∈ range i, t.a i j • e j) := by
    intro i hi
    have : ∑ j ∈ range i, t.a i j • K j = ∑ j ∈ range i, t.a i j • dpoly N xs (t.c j * h) +
        M (∑ j ∈ range i, t.a i j • e j) := by
      rw [map_sum, ← sum_add_distrib]
      refine sum_congr rfl fun j hj => ?_
      rw [hKe j (lt_trans (mem_range.1 hj) hi), smul_add, map_smul]
    show xs 0 + h • (∑ j ∈ range i, t.a i j • K j) - poly N xs (t.c i * h) = _
    rw [this]
    simp only [d]
    module
  let E : Nat → V := fun r => ∑ i ∈ range t.stages, (rowPow t w r).getD i 0 • e i
  let D : Nat → V := fun r => ∑ i ∈ range t.stages, (rowPow t w r).getD i 0 • d i
  have hE : ∀ r, E r = D r + h • M (E (r + 1)) := by
    intro r
    have hs := sum_stages t w r e
    show _ = D r + h • M (∑ j ∈ range t.stages, (rowPow t w (r + 1)).getD j 0 • e j)
    rw [← hs, map_sum, smul_sum]
    show ∑ i ∈ range t.stages, (rowPow t w r).getD i 0 • e i =
      ∑ i ∈ range t.stages, (rowPow t w r).getD i 0 • d i + _
    rw [← sum_add_distrib]
    refine sum_congr rfl fun i hi => ?_
    rw [he i (mem_range.1 hi), smul_add, map_smul]
    congr 1
    rw [smul_comm]
  have hiter : ∀ r, E 0 = ∑ q ∈ range r, h ^ q • (M ^ q) (D q) + h ^ r • (M ^ r) (E r) := by
    intro r
    induction r with
    | zero => simp
    | succ r ih =>
      have hr : (M ^ r) (E r) = (M ^ r) (D r) + h • (M ^ (r + 1)) (E (r + 1)) := by
        rw [hE r, map_add, map_smul, pow_succ, Module.End.mul_apply]
      rw [ih, sum_range_succ, hr, smul_add, smul_smul, ← pow_succ, add_assoc]
  have hEs : M (E t.stages) = 0 := by
    have : E t.stages = 0 ∨ t.stages = 0 := by
      by_cases h0 : t.stages = 0
      · exact Or.inr h0
      · left
        refine sum_eq_zero fun i hi => ?_
        rcases rowPow_zero t w t.stages i (by omega) (mem_range.1 hi) with hz | hz
        · rw [hz, zero_smul]
        · exact absurd hz h0
    rcases this with h0 | h0
    · rw [h0, map_zero]
    · show M (∑ i ∈ range t.stages, _) = 0
      rw [h0]
      simp
  have hM : M (E 0) = ∑ r ∈ range t.stages, h ^ r • (M ^ (r + 1)) (D r) := by
    rw [hiter t.stages, map_add, map_smul, map_sum]
    have hc : M ((M ^ t.stages) (E t.stages)) = 0 := by
      rw [← Module.End.mul_apply, ← pow_succ', pow_succ, Module.End.mul_apply, hEs, map_zero]
    rw [hc, smul_zero, add_zero]
    refine sum_congr rfl fun r _ => ?_
    rw [map_smul, ← Module.End.mul_apply, ← pow_succ']
  have hD : ∀ r, D r = ∑ n ∈ range N, (h ^ (n + 1) * stageDefect t w r n) • xs (n + 1) :=
    fun r => sum_defects t N xs h w r
  have hsum : ∑ i ∈ range t.stages, w.getD i 0 • K i =
      ∑ i ∈ range t.stages, w.getD i 0 • dpoly N xs (t.c i * h) + M (E 0) := by
    show _ = _ + M (∑ i ∈ range t.stages, (rowPow t w 0).getD i 0 • e i)
    rw [map_sum, ← sum_add_distrib]
    refine sum_congr rfl fun i hi => ?_
    rw [hKe i (mem_range.1 hi), smul_add, map_smul]
    rfl
  rw [hsum, sum_dpoly, hM, smul_add, poly_eq, ← add_assoc]
  congr 1
  · rw [smul_sum, add_assoc, ← sum_add_distrib]
    congr 1
    refine sum_congr rfl fun n _ => ?_
    rw [smul_smul, smul_smul, ← add_smul]
    congr 1
    unfold quadDefect moment
    rw [sum_range_list]
    simp only [rowPow]
    ring
  · rw [smul_sum]
    refine sum_congr rfl fun r _ => ?_
    rw [hD, map_sum, smul_sum, smul_sum]
    refine sum_congr rfl fun n _ => ?_
    rw [map_smul, smul_smul, smul_smul]
    congr 1
    ring
end linear

/-! ### The shipped methods -/

/-- How far the coefficients of a method are from the exact ones: the tables of Dormand Prince 7-8 and of
Runge Kutta 8-9 have approximations of irrational numbers. -/
def tol : Method → ℚ
  | .rungeKutta89 => 1 / 10 ^ 17
  | .dormandPrince78 => 1 / 10 ^ 16
  | _ => 0

/-- The order of the embedded formula. -/
def embedded : Method → Nat
  | .rungeKutta4 => 4
  | m => m.tab.order - 1

theorem method_shaped (m : Method) : m.tab.Shaped := by cases m <;> decide

theorem defects (m : Method) :
    (∀ n, n + 1 ≤ m.tab.order → |quadDefect m.tab m.tab.B n| ≤ tol m) ∧
    (∀ r n, r + n + 2 ≤ m.tab.order → |stageDefect m.tab m.tab.B r n| ≤ tol m) := by
  have h : (∀ n < m.tab.order, |quadDefect m.tab m.tab.B n| ≤ tol m) ∧
      ∀ r < m.tab.order, ∀ n < m.tab.order - 1 - r, |stageDefect m.tab m.tab.B r n| ≤ tol m := by
    cases m <;> decide +kernel
  exact ⟨fun n hn => h.1 n (by omega), fun r n hn => h.2 r (by omega) n (by omega)⟩

theorem defects_embedded (m : Method) :
    (∀ n, n + 1 ≤ embedded m → |quadDefect m.tab (m.tab.B.drop m.tab.stages) n| ≤ tol m) ∧
    (∀ r n, r + n + 2 ≤ embedded m → |stageDefect m.tab (m.tab.B.drop m.tab.stages) r n| ≤ tol m) := by
  have h : (∀ n < embedded m, |quadDefect m.tab (m.tab.B.drop m.tab.stages) n| ≤ tol m) ∧
      ∀ r < embedded m, ∀ n < embedded m - 1 - r,
        |stageDefect m.tab (m.tab.B.drop m.tab.stages) r n| ≤ tol m := by
    cases m <;> decide +kernel
  exact ⟨fun n hn => h.1 n (by omega), fun r n hn => h.2 r (by omega) n (by omega)⟩

/-- **C12 (order).** Every shipped method, with order `p`: there are numbers `q n` and `s r n`, which
depend on the method only, those up to the order at most `tol` in magnitude (`1e-16` for Dormand Prince
7-8, `1e-17` for Runge Kutta 8-9, zero for all others), such that for every linear problem `x' = M x + F(τ)` with a
polynomial solution, every step size and every start, the step succeeds and its error is the sum of
`h^(n+1) (q n) x_(n+1)` and `h^(r+n+2) (s r n) M^(r+1) x_(n+1)`. So the local error has order `p + 1`. -/
theorem step_order (m : Method) : ∃ (q : Nat → ℚ) (s : Nat → Nat → ℚ),
    (∀ n, n + 1 ≤ m.tab.order → |q n| ≤ tol m) ∧
    (∀ r n, r + n + 2 ≤ m.tab.order → |s r n| ≤ tol m) ∧
    ∀ (V : Type) [AddCommGroup V] [Module ℚ V] (M : V →ₗ[ℚ] V) (N : Nat) (xs : Nat → V) (F : ℚ → V)
      (_ : ∀ τ, dpoly N xs τ = M (poly N xs τ) + F τ) (f : Eom V)
      (_ : ∀ τ y, f τ y = some (M y + F τ)) (fixed : Bool) (h : ℚ),
      ∃ next err, rkStep m.tab f fixed (xs 0) h = .ok (next, err) ∧
        next = poly N xs h + (∑ n ∈ range N, (h ^ (n + 1) * q n) • xs (n + 1)) +
          ∑ r ∈ range m.tab.stages, ∑ n ∈ range N,
            (h ^ (r + n + 2) * s r n) • (M ^ (r + 1)) (xs (n + 1)) := by
  refine ⟨quadDefect m.tab m.tab.B, stageDefect m.tab m.tab.B, (defects m).1, (defects m).2, ?_⟩
  intro V _ _ M N xs F hsol f hf fixed h
  obtain ⟨⟨next, err⟩, hr⟩ := rkStep_total m.tab (method_shaped m) f
    (fun τ y => ⟨_, hf τ y⟩) fixed (xs 0) h
  obtain ⟨K, h1, h2, -⟩ := rkStep_ok m.tab (method_shaped m).1 f fixed (xs 0) h next err hr
  refine ⟨next, err, hr, ?_⟩
  rw [h2]
  exact linear_error m.tab M N xs h m.tab.B F hsol K fun i hi => by
    have := h1 i hi
    rw [hf, Option.some.injEq] at this
    exact this

/-- The exact methods. -/
def Exact (m : Method) : Prop :=
  m = .dormandPrince45 ∨ m = .rungeKutta4 ∨ m = .cashKarp45 ∨ m = .verner56

theorem Exact.tol {m : Method} (h : Exact m) : tol m = 0 := by
  rcases h with rfl | rfl | rfl | rfl <;> rfl

/-- **C12.** With an exact method of order `p`: whenever the solution is a polynomial and `M^j x_n`
vanishes for `j + n > p` (the solution and what is integrated from it have degree at most `p`), one step
of any size returns exactly the solution. -/
theorem step_exact_partial (m : Method) (hm : Exact m) (M : V →ₗ[ℚ] V) (N : Nat) (xs : Nat → V)
    (F : ℚ → V) (hsol : ∀ τ, dpoly N xs τ = M (poly N xs τ) + F τ)
    (hdeg : ∀ j n, m.tab.order < j + n → (M ^ j) (xs n) = 0) (f : Eom V)
    (hf : ∀ τ y, f τ y = some (M y + F τ)) (fixed : Bool) (h : ℚ) :
    ∃ err, rkStep m.tab f fixed (xs 0) h = .ok (poly N xs h, err) := by
  obtain ⟨q, s, h1, h2, h3⟩ := step_order m
  obtain ⟨next, err, hr, hn⟩ := h3 V M N xs F hsol f hf fixed h
  refine ⟨err, ?_⟩
  rw [hr, hn]
  have e1 : ∑ n ∈ range N, (h ^ (n + 1) * q n) • xs (n + 1) = 0 := by
    refine sum_eq_zero fun n _ => ?_
    by_cases hle : n + 1 ≤ m.tab.order
    · have := h1 n hle
      rw [hm.tol, abs_nonpos_iff] at this
      rw [this, mul_zero, zero_smul]
    · have := hdeg 0 (n + 1) (by omega)
      rw [pow_zero, Module.End.one_apply] at this
      rw [this, smul_zero]
  have e2 : ∑ r ∈ range m.tab.stages, ∑ n ∈ range N,
      (h ^ (r + n + 2) * s r n) • (M ^ (r + 1)) (xs (n + 1)) = 0 := by
    refine sum_eq_zero fun r _ => sum_eq_zero fun n _ => ?_
    by_cases hle : r + n + 2 ≤ m.tab.order
    · have := h2 r n hle
      rw [hm.tol, abs_nonpos_iff] at this
      rw [this, mul_zero, zero_smul]
    · rw [hdeg (r + 1) (n + 1) (by omega), smul_zero]
  rw [e1, e2, add_zero, add_zero]

/-- Coefficients of the integral of the polynomial with coefficients `fs`, from `x`. -/
def integral (x : V) (fs : Nat → V) : Nat → V
  | 0 => x
  | n + 1 => (1 / ((n : ℚ) + 1)) • fs n

theorem dpoly_integral (N : Nat) (x : V) (fs : Nat → V) (τ : ℚ) :
    dpoly N (integral x fs) τ = ∑ n ∈ range N, τ ^ n • fs n := by
  unfold dpoly
  refine sum_congr rfl fun n _ => ?_
  have : ((n : ℚ) + 1) ≠ 0 := by positivity
  simp only [integral]
  rw [smul_smul]
  congr 1
  field_simp

theorem poly_integral (N : Nat) (x : V) (fs : Nat → V) (τ : ℚ) :
    poly N (integral x fs) τ = x + ∑ n ∈ range N, (τ ^ (n + 1) / ((n : ℚ) + 1)) • fs n := by
  rw [poly_eq]
  congr 1
  refine sum_congr rfl fun n _ => ?_
  simp only [integral]
  rw [smul_smul]
  congr 1
  ring

/-- **C12 (quadrature), all methods.** One step on `x' = Σ_{n<p} τ^n f_n`, `p` the order, is the integral
`x + Σ h^(n+1)/(n+1) f_n` up to a relative error of each term of at most `tol`. -/
theorem quadrature_close (m : Method) (fs : Nat → V) (f : Eom V)
    (hf : ∀ τ y, f τ y = some (∑ n ∈ range m.tab.order, τ ^ n • fs n)) (fixed : Bool) (x : V) (h : ℚ) :
    ∃ (δ : Nat → ℚ) (err : V), (∀ n < m.tab.order, |δ n| ≤ tol m) ∧
      rkStep m.tab f fixed x h = .ok (x + ∑ n ∈ range m.tab.order,
        ((1 + δ n) * (h ^ (n + 1) / ((n : ℚ) + 1))) • fs n, err) := by
  obtain ⟨q, s, h1, -, h3⟩ := step_order m
  obtain ⟨next, err, hr, hn⟩ := h3 V 0 m.tab.order (integral x fs)
    (fun τ => ∑ n ∈ range m.tab.order, τ ^ n • fs n)
    (fun τ => by rw [dpoly_integral, LinearMap.zero_apply, zero_add]) f
    (fun τ y => by rw [hf, LinearMap.zero_apply, zero_add]) fixed h
  refine ⟨q, err, fun n hn => h1 n (by omega), ?_⟩
  have e2 : ∑ r ∈ range m.tab.stages, ∑ n ∈ range m.tab.order, (h ^ (r + n + 2) * s r n) •
      ((0 : V →ₗ[ℚ] V) ^ (r + 1)) (integral x fs (n + 1)) = 0 := by
    refine sum_eq_zero fun r _ => sum_eq_zero fun n _ => ?_
    rw [zero_pow (Nat.succ_ne_zero r), LinearMap.zero_apply, smul_zero]
  rw [e2, add_zero, poly_integral, add_assoc, ← sum_add_distrib] at hn
  show rkStep m.tab f fixed (integral x fs 0) h = _
  rw [hr, hn]
  congr 3
  refine sum_congr rfl fun n _ => ?_
  simp only [integral]
  rw [smul_smul, ← add_smul]
  congr 1
  ring

/-- **C12 (quadrature), exact methods.** -/
theorem quadrature_exact_partial (m : Method) (hm : Exact m) (fs : Nat → V) (f : Eom V)
    (hf : ∀ τ y, f τ y = some (∑ n ∈ range m.tab.order, τ ^ n • fs n)) (fixed : Bool) (x : V) (h : ℚ) :
    ∃ err, rkStep m.tab f fixed x h = .ok
      (x + ∑ n ∈ range m.tab.order, (h ^ (n + 1) / ((n : ℚ) + 1)) • fs n, err) := by
  obtain ⟨δ, err, h1, h2⟩ := quadrature_close m fs f hf fixed x h
  refine ⟨err, ?_⟩
  rw [h2]
  congr 3
  refine sum_congr rfl fun n hn => ?_
  have := h1 n (mem_range.1 hn)
  rw [hm.tol, abs_nonpos_iff] at this
  rw [this, add_zero, one_mul]

/-- **C12 (ballistic motion).** With an exact method of order `p`, a body whose acceleration depends on
time as a polynomial, so that its position is a polynomial of degree at most `p` in time, is
integrated exactly by one step of any size: position and velocity. -/
theorem ballistic_exact_partial (m : Method) (hm : Exact m) (N : Nat) (hN : N ≤ m.tab.order)
    (ps : Nat → V) (hp : ∀ n, N < n → ps n = 0) (f : Eom (V × V))
    (hf : ∀ τ y, f τ y = some (y.2, ∑ n ∈ range N, (τ ^ n * (((n : ℚ) + 1) * ((n : ℚ) + 2))) • ps (n + 2)))
    (fixed : Bool) (h : ℚ) :
    ∃ err, rkStep m.tab f fixed (ps 0, ps 1) h = .ok ((poly N ps h, dpoly N ps h), err) := by
  let M : V × V →ₗ[ℚ] V × V := (LinearMap.inl ℚ V V).comp (LinearMap.snd ℚ V V)
  let xs : Nat → V × V := fun n => (ps n, ((n : ℚ) + 1) • ps (n + 1))
  have hMM : ∀ j y, 2 ≤ j → (M ^ j) y = 0 := by
    intro j y hj
    obtain ⟨k, rfl⟩ : ∃ k, j = k + 2 := ⟨j - 2, by omega⟩
    rw [pow_add, Module.End.mul_apply]
    have : (M ^ 2) y = 0 := by
      rw [pow_two, Module.End.mul_apply]
      simp [M]
    rw [this, map_zero]
  have hfst : ∀ (s : Finset Nat) (g : Nat → V × V), (∑ n ∈ s, g n).1 = ∑ n ∈ s, (g n).1 :=
    fun s g => map_sum (LinearMap.fst ℚ V V) g s
  have hsnd : ∀ (s : Finset Nat) (g : Nat → V × V), (∑ n ∈ s, g n).2 = ∑ n ∈ s, (g n).2 :=
    fun s g => map_sum (LinearMap.snd ℚ V V) g s
  have hpoly : ∀ τ, poly N xs τ = (poly N ps τ, dpoly N ps τ) := by
    intro τ
    ext
    · unfold poly
      rw [hfst]
      rfl
    · unfold poly dpoly
      rw [hsnd, sum_range_succ]
      have : (τ ^ N • xs N).2 = 0 := by
        simp only [xs, Prod.smul_snd]
        rw [hp (N + 1) (by omega), smul_zero, smul_zero]
      rw [this, add_zero]
      refine sum_congr rfl fun n _ => ?_
      simp only [xs, Prod.smul_snd]
      rw [smul_smul]
  obtain ⟨err, he⟩ := step_exact_partial m hm M N xs
    (fun τ => (0, ∑ n ∈ range N, (τ ^ n * (((n : ℚ) + 1) * ((n : ℚ) + 2))) • ps (n + 2))) (by
      intro τ
      rw [hpoly]
      ext
      · unfold dpoly
        rw [hfst]
        simp [M, xs, dpoly]
      · unfold dpoly
        rw [hsnd]
        simp only [M, xs, Prod.smul_snd, LinearMap.comp_apply, LinearMap.snd_apply,
          LinearMap.inl_apply, Prod.snd_add, zero_add]
        refine sum_congr rfl fun n _ => ?_
        rw [smul_smul]
        congr 1
        push_cast
        ring) (by
      intro j n hj
      by_cases h2 : 2 ≤ j
      · exact hMM j _ h2
      · have hn : N < n + 1 := by omega
        have hz : ps (n + 1) = 0 := hp _ hn
        by_cases h1 : j = 1
        · subst h1
          simp [M, xs, hz]
        · have h0 : j = 0 := by omega
          subst h0
          have : ps n = 0 := hp _ (by omega)
          simp [xs, hz, this]) f (by
      intro τ y
      rw [hf]
      simp [M]) fixed h
  refine ⟨err, ?_⟩
  rw [← hpoly]
  have : xs 0 = (ps 0, ps 1) := by simp [xs]
  rw [← this]
  exact he

/-- **C12 (weights).** The weights of the formula and of the embedded formula sum to one, up to
`tol` for the two approximated tables. -/
theorem weights_sum (m : Method) :
    |∑ i ∈ range m.tab.stages, m.tab.b i - 1| ≤ tol m ∧
    |∑ i ∈ range m.tab.stages, m.tab.b' i - 1| ≤ tol m := by
  have h : |((List.range m.tab.stages).map fun i => m.tab.b i).sum - 1| ≤ tol m ∧
      |((List.range m.tab.stages).map fun i => m.tab.b' i).sum - 1| ≤ tol m := by
    cases m <;> decide +kernel
  exact h

/-- **C12 refuted for the exact claim.** The weights of Dormand Prince 7-8 do not sum to one: a constant
derivative is not integrated exactly. -/
theorem dormand78_not_exact : (∀ err, rkStep (V := ℚ) dormand78 (fun _ _ => some 1) true 0 1 ≠ .ok (1, err)) ∧
    ∑ i ∈ range dormand78.stages, dormand78.b i ≠ 1 := by
  have hw : ((List.range dormand78.stages).map fun i => dormand78.b i).sum ≠ 1 := by decide +kernel
  refine ⟨fun err h => ?_, hw⟩
  obtain ⟨K, h1, h2, -⟩ := rkStep_ok dormand78 (by decide) _ _ _ _ _ _ h
  apply hw
  rw [sum_range_list]
  have hK : ∀ i ∈ range dormand78.stages, dormand78.b i • K i = dormand78.b i := by
    intro i hi
    have := h1 i (mem_range.1 hi)
    simp only [Option.some.injEq] at this
    rw [← this, smul_eq_mul, mul_one]
  rw [sum_congr rfl hK, zero_add, one_smul] at h2
  exact h2.symm

/-- **C12 (error estimate).** With an exact method, the error estimate that drives the adaptive step is
zero whenever the solution is polynomial with degree at most that of the embedded formula. -/
theorem error_estimate_zero_partial (m : Method) (hm : Exact m) (M : V →ₗ[ℚ] V) (N : Nat)
    (xs : Nat → V) (F : ℚ → V) (hsol : ∀ τ, dpoly N xs τ = M (poly N xs τ) + F τ)
    (hdeg : ∀ j n, embedded m < j + n → (M ^ j) (xs n) = 0) (f : Eom V)
    (hf : ∀ τ y, f τ y = some (M y + F τ)) (fixed : Bool) (h : ℚ) :
    rkStep m.tab f fixed (xs 0) h = .ok (poly N xs h, 0) := by
  have hle : embedded m ≤ m.tab.order := by cases m <;> decide
  obtain ⟨err, hr⟩ := step_exact_partial m hm M N xs F hsol (fun j n hj => hdeg j n (by omega)) f hf fixed h
  rw [hr]
  obtain ⟨K, h1, h2, h3⟩ := rkStep_ok m.tab (method_shaped m).1 f fixed (xs 0) h _ err hr
  cases fixed with
  | true => rw [h3]; simp
  | false =>
    simp only [Bool.false_eq_true, if_false] at h3
    have hb' : ∀ i, m.tab.b' i = (m.tab.B.drop m.tab.stages).getD i 0 := by
      intro i
      unfold Tab.b'
      rw [List.getD_eq_getElem?_getD, List.getD_eq_getElem?_getD, List.getElem?_drop, add_comm]
    have he := linear_error m.tab M N xs h (m.tab.B.drop m.tab.stages) F hsol K fun i hi => by
      have := h1 i hi
      rw [hf, Option.some.injEq] at this
      exact this
    have e1 : ∑ n ∈ range N, (h ^ (n + 1) * quadDefect m.tab (m.tab.B.drop m.tab.stages) n) •
        xs (n + 1) = 0 := by
      refine sum_eq_zero fun n _ => ?_
      by_cases hle : n + 1 ≤ embedded m
      · have := (defects_embedded m).1 n hle
        rw [hm.tol, abs_nonpos_iff] at this
        rw [this, mul_zero, zero_smul]
      · have := hdeg 0 (n + 1) (by omega)
        rw [pow_zero, Module.End.one_apply] at this
        rw [this, smul_zero]
    have e2 : ∑ r ∈ range m.tab.stages, ∑ n ∈ range N,
        (h ^ (r + n + 2) * stageDefect m.tab (m.tab.B.drop m.tab.stages) r n) •
          (M ^ (r + 1)) (xs (n + 1)) = 0 := by
      refine sum_eq_zero fun r _ => sum_eq_zero fun n _ => ?_
      by_cases hle : r + n + 2 ≤ embedded m
      · have := (defects_embedded m).2 r n hle
        rw [hm.tol, abs_nonpos_iff] at this
        rw [this, mul_zero, zero_smul]
      · rw [hdeg (r + 1) (n + 1) (by omega), smul_zero]
    rw [e1, e2, add_zero, add_zero] at he
    have : err = 0 := by
      rw [h3]
      have hs : ∑ i ∈ range m.tab.stages, (m.tab.b i - m.tab.b' i) • K i =
          ∑ i ∈ range m.tab.stages, m.tab.b i • K i -
          ∑ i ∈ range m.tab.stages, (m.tab.B.drop m.tab.stages).getD i 0 • K i := by
        rw [← sum_sub_distrib]
        refine sum_congr rfl fun i _ => ?_
        rw [sub_smul, hb']
      rw [hs, smul_sub]
      have := h2.symm.trans he.symm
      exact sub_eq_zero.2 (add_left_cancel this)
    rw [this]

/-! ### C13 -/

/-- Steps with a table, one after the other; each has its own equations of motion (the context changes
from step to step), its own kind and size. -/
def steps (t : Tab) : List (Eom V × Bool × ℚ) → V → Res V
  | [], x => .ok x
  | s :: l, x => (rkStep t s.1 s.2.1 x s.2.2).bind fun r => steps t l r.1

/-- **C13.** A linear function of the state with a constant derivative `g` along the dynamics changes by
`h g` times the sum of the weights, for any table. -/
theorem linear_rate {W : Type} [AddCommGroup W] [Module ℚ W] (t : Tab) (hs : 1 ≤ t.stages)
    (L : V →ₗ[ℚ] W) (f : Eom V) (g : W) (hL : ∀ τ y k, f τ y = some k → L k = g) (fixed : Bool)
    (x : V) (h : ℚ) (next err : V) (hr : rkStep t f fixed x h = .ok (next, err)) :
    L next = L x + (h * ∑ i ∈ range t.stages, t.b i) • g := by
  obtain ⟨K, h1, h2, -⟩ := rkStep_ok t hs f fixed x h next err hr
  rw [h2, map_add, map_smul, map_sum, mul_smul, sum_smul]
  congr 2
  refine sum_congr rfl fun i hi => ?_
  rw [map_smul, hL _ _ _ (h1 i (mem_range.1 hi))]

/-- **C13.** If a linear function of the state has a zero derivative along the dynamics, it is the same
after any number of steps, with any table, step sizes and kinds. -/
theorem linear_invariant {W : Type} [AddCommGroup W] [Module ℚ W] (t : Tab) (hs : 1 ≤ t.stages)
    (L : V →ₗ[ℚ] W) : ∀ (l : List (Eom V × Bool × ℚ)) (x y : V),
      (∀ s ∈ l, ∀ τ z k, s.1 τ z = some k → L k = 0) → steps t l x = .ok y → L y = L x := by
  intro l
  induction l with
  | nil =>
    intro x y _ h
    simp only [steps, Res.ok.injEq] at h
    rw [h]
  | cons s l ih =>
    intro x y hl h
    unfold steps at h
    obtain ⟨⟨next, err⟩, h1, h2⟩ := Res.bind_eq_ok.1 h
    rw [ih next y (fun s' hs' => hl s' (List.mem_cons_of_mem _ hs')) h2,
      linear_rate t hs L s.1 0 (hl s (List.mem_cons_self ..)) s.2.1 x s.2.2 next err h1, smul_zero,
      add_zero]

/-! ### Examples -/

/-- A throw in a constant field with every exact method: position `3 + 2 h + 5 h²`. -/
example (m : Method) (hm : Exact m) (h : ℚ) :
    ∃ err, rkStep (V := ℚ × ℚ) m.tab (fun _ y => some (y.2, 10)) false (3, 2) h =
      .ok ((3 + 2 * h + 5 * h ^ 2, 2 + 10 * h), err) := by
  have hN : 2 ≤ m.tab.order := by rcases hm with rfl | rfl | rfl | rfl <;> decide
  obtain ⟨err, he⟩ := ballistic_exact_partial m hm 2 hN (V := ℚ)
    (fun n => if n = 0 then 3 else if n = 1 then 2 else if n = 2 then 5 else 0)
    (fun n hn => by
      rw [if_neg (by omega), if_neg (by omega), if_neg (by omega)])
    (fun _ y => some (y.2, 10)) (by
      intro τ y
      simp [sum_range_succ]
      norm_num) false h
  refine ⟨err, ?_⟩
  have h0 : ((if (0 : Nat) = 0 then 3 else if (0 : Nat) = 1 then 2 else if (0 : Nat) = 2 then 5 else 0 : ℚ),
      (if (1 : Nat) = 0 then 3 else if (1 : Nat) = 1 then 2 else if (1 : Nat) = 2 then 5 else 0 : ℚ)) =
        ((3 : ℚ), (2 : ℚ)) := by norm_num
  rw [h0] at he
  rw [he]
  congr 2
  ext
  · simp [poly, sum_range_succ]; ring
  · simp [dpoly, sum_range_succ]; ring

/-- The integral of `τ^3` with Runge Kutta 4. -/
example (x h : ℚ) : ∃ err, rkStep (V := ℚ) Method.rungeKutta4.tab (fun τ _ => some (τ ^ 3)) true x h =
    .ok (x + h ^ 4 / 4, err) := by
  obtain ⟨err, he⟩ := quadrature_exact_partial .rungeKutta4 (Or.inr (Or.inl rfl)) (V := ℚ)
    (fun n => if n = 3 then 1 else 0) (fun τ _ => some (τ ^ 3)) (by
      intro τ y
      simp [Method.tab, rk4, sum_range_succ]) true x h
  refine ⟨err, ?_⟩
  rw [he]
  congr 2
  simp [Method.tab, rk4, sum_range_succ]
  norm_num

/-- Position plus velocity of a harmonic like exchange: the sum of both components is conserved by
two steps with different sizes. -/
example (m : Method) (x y : ℚ × ℚ)
    (h : steps m.tab [(fun _ z => some (z.2, -z.2), false, 10), (fun τ _ => some (τ, -τ), true, 1 / 3)] x =
      .ok y) : y.1 + y.2 = x.1 + x.2 := by
  have := linear_invariant m.tab (method_shaped m).1
    (LinearMap.fst ℚ ℚ ℚ + LinearMap.snd ℚ ℚ ℚ) _ x y (by
      intro s hs τ z k hk
      simp only [List.mem_cons, List.not_mem_nil, or_false] at hs
      rcases hs with rfl | rfl
      · simp only [Option.some.injEq] at hk
        rw [← hk]
        simp
      · simp only [Option.some.injEq] at hk
        rw [← hk]
        simp) h
  simpa using this

end Verif.Rk
