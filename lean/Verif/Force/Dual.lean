import Mathlib.Analysis.Calculus.FDeriv.Mul
import Mathlib.Analysis.Calculus.FDeriv.Prod
import Mathlib.Analysis.Calculus.Deriv.Inv
import Mathlib.Analysis.Calculus.Deriv.Pow
import Mathlib.Analysis.SpecialFunctions.Sqrt
import Mathlib.Data.Matrix.Mul
import Verif.MathU.Model

/-!
# Hyperdual numbers

The gradients of nyx-core/src/dynamics (orbital.rs:116-172, 249-308; gravity_field.rs:267-431;
solarpressure.rs:167-232) are computed with the numbers of the crate `hyperdual`, which is not in the
repository: a real part and one derivative per variable, with the rules of differentiation. The rules
are written here; `Tracks` is what they are for, and the lemmas show that each rule keeps it.
-/

namespace Verif.Force
open Verif.MathU Matrix

/-- A number of the crate `hyperdual`: value and derivatives with respect to `n` variables
(`OHyperdual<f64, Const<n+1>>`, used at dynamics/orbital.rs:124, dynamics/gravity_field.rs:279). -/
@[ext]
structure Dual (n : ℕ) where
  /-- `real()`, or index 0 -/
  re : ℝ
  /-- indices 1 to n -/
  eps : Fin n → ℝ

namespace Dual
variable {n : ℕ}

/-- `OHyperdual::from_real` (used at dynamics/orbital.rs:133): a constant. -/
def ofReal (a : ℝ) : Dual n := ⟨a, 0⟩

noncomputable instance : Add (Dual n) := ⟨fun a b => ⟨a.re + b.re, fun j => a.eps j + b.eps j⟩⟩
noncomputable instance : Sub (Dual n) := ⟨fun a b => ⟨a.re - b.re, fun j => a.eps j - b.eps j⟩⟩
noncomputable instance : Mul (Dual n) := ⟨fun a b => ⟨a.re * b.re, fun j => a.re * b.eps j + a.eps j * b.re⟩⟩
noncomputable instance : Div (Dual n) :=
  ⟨fun a b => ⟨a.re / b.re, fun j => (a.eps j * b.re - a.re * b.eps j) / (b.re * b.re)⟩⟩
noncomputable instance : Zero (Dual n) := ⟨ofReal 0⟩

/-- `powi` for the exponents used (2 and 3; dynamics/orbital.rs:138, dynamics/solarpressure.rs:199). -/
noncomputable def powi (a : Dual n) (k : ℕ) : Dual n := ⟨a.re ^ k, fun j => k * a.re ^ (k - 1) * a.eps j⟩

/-- `sqrt`. -/
noncomputable def sqrt (a : Dual n) : Dual n := ⟨Real.sqrt a.re, fun j => a.eps j / (2 * Real.sqrt a.re)⟩

/-- `hyperdual::linalg::norm` of a vector of three numbers (used at dynamics/orbital.rs:131). -/
noncomputable def norm3 (v : Fin 3 → Dual n) : Dual n := sqrt (powi (v 0) 2 + powi (v 1) 2 + powi (v 2) 2)

/-- `hyperspace_from_vector` (used at dynamics/orbital.rs:124): each component is a variable. -/
def vars {n : ℕ} (x : Fin n → ℝ) : Fin n → Dual n := fun i => ⟨x i, fun j => if j = i then 1 else 0⟩

end Dual

/-- The linear form with coefficients `e`. -/
noncomputable def lin {n : ℕ} (e : Fin n → ℝ) : (Fin n → ℝ) →L[ℝ] ℝ :=
  ∑ j, e j • (ContinuousLinearMap.proj j : (Fin n → ℝ) →L[ℝ] ℝ)

/-- Specification: the value of `f` at `x` and its exact derivative there. -/
def Tracks {n : ℕ} (x : Fin n → ℝ) (f : (Fin n → ℝ) → ℝ) (d : Dual n) : Prop :=
  d.re = f x ∧ HasFDerivAt f (lin d.eps) x

/-- The linear map of a matrix. -/
noncomputable def linM {m n : ℕ} (M : Matrix (Fin m) (Fin n) ℝ) : (Fin n → ℝ) →L[ℝ] (Fin m → ℝ) :=
  ContinuousLinearMap.pi fun i => lin (M i)

theorem lin_apply {n : ℕ} (e v : Fin n → ℝ) : lin e v = e ⬝ᵥ v := by
  simp [lin, dotProduct]

theorem linM_apply {m n : ℕ} (M : Matrix (Fin m) (Fin n) ℝ) (v : Fin n → ℝ) : linM M v = M *ᵥ v := by
  funext i
  simp [linM, lin_apply, mulVec]

theorem lin_congr {n : ℕ} {e : Fin n → ℝ} {L : (Fin n → ℝ) →L[ℝ] ℝ} (h : ∀ v, L v = e ⬝ᵥ v) : L = lin e := by
  ext v
  rw [lin_apply, h]

section
variable {n : ℕ} {x : Fin n → ℝ} {f g : (Fin n → ℝ) → ℝ} {a b : Dual n}

theorem Tracks.ofReal (c : ℝ) : Tracks x (fun _ => c) (Dual.ofReal c) := by
  refine ⟨rfl, ?_⟩
  have h := hasFDerivAt_const (𝕜 := ℝ) c x
  rwa [show (0 : (Fin n → ℝ) →L[ℝ] ℝ) = lin (Dual.ofReal (n := n) c).eps from
    lin_congr fun v => by simp [Dual.ofReal]] at h

theorem Tracks.var (i : Fin n) : Tracks x (fun y => y i) (Dual.vars x i) := by
  refine ⟨rfl, ?_⟩
  have h := hasFDerivAt_apply (𝕜 := ℝ) i x
  rwa [show (ContinuousLinearMap.proj i : (Fin n → ℝ) →L[ℝ] ℝ) = lin (Dual.vars x i).eps from
    lin_congr fun v => by simp [Dual.vars, dotProduct]] at h

theorem Tracks.add (hf : Tracks x f a) (hg : Tracks x g b) : Tracks x (fun y => f y + g y) (a + b) := by
  refine ⟨congrArg₂ (· + ·) hf.1 hg.1, ?_⟩
  have h := hf.2.add hg.2
  rwa [show lin a.eps + lin b.eps = lin (a + b).eps from lin_congr fun v => by
    show lin a.eps v + lin b.eps v = (fun j => a.eps j + b.eps j) ⬝ᵥ v
    rw [lin_apply, lin_apply, ← add_dotProduct]; rfl] at h

theorem Tracks.sub (hf : Tracks x f a) (hg : Tracks x g b) : Tracks x (fun y => f y - g y) (a - b) := by
  refine ⟨congrArg₂ (· - ·) hf.1 hg.1, ?_⟩
  have h := hf.2.sub hg.2
  rwa [show lin a.eps - lin b.eps = lin (a - b).eps from lin_congr fun v => by
    show lin a.eps v - lin b.eps v = (fun j => a.eps j - b.eps j) ⬝ᵥ v
    rw [lin_apply, lin_apply, ← sub_dotProduct]; rfl] at h

theorem Tracks.mul (hf : Tracks x f a) (hg : Tracks x g b) : Tracks x (fun y => f y * g y) (a * b) := by
  refine ⟨congrArg₂ (· * ·) hf.1 hg.1, ?_⟩
  have h := hf.2.mul hg.2
  rwa [show f x • lin b.eps + g x • lin a.eps = lin (a * b).eps from lin_congr fun v => by
    show f x * lin b.eps v + g x * lin a.eps v = (fun j => a.re * b.eps j + a.eps j * b.re) ⬝ᵥ v
    rw [lin_apply, lin_apply, hf.1, hg.1]
    simp only [dotProduct, Finset.mul_sum, ← Finset.sum_add_distrib]
    exact Finset.sum_congr rfl fun j _ => by ring] at h

theorem Tracks.div (hf : Tracks x f a) (hg : Tracks x g b) (h0 : g x ≠ 0) :
    Tracks x (fun y => f y / g y) (a / b) := by
  refine ⟨congrArg₂ (· / ·) hf.1 hg.1, ?_⟩
  have hi := (hasDerivAt_inv h0).comp_hasFDerivAt x hg.2
  have h := hf.2.mul hi
  have e : (f * (Inv.inv ∘ g)) = fun y => f y / g y := by
    funext y
    simp [div_eq_mul_inv]
  rw [e] at h
  rwa [show f x • (-(g x ^ 2)⁻¹ • lin b.eps) + (Inv.inv ∘ g) x • lin a.eps = lin (a / b).eps from lin_congr fun v => by
    show f x * (-(g x ^ 2)⁻¹ * lin b.eps v) + (g x)⁻¹ * lin a.eps v =
      (fun j => (a.eps j * b.re - a.re * b.eps j) / (b.re * b.re)) ⬝ᵥ v
    rw [lin_apply, lin_apply, hf.1, hg.1]
    simp only [dotProduct, Finset.mul_sum, ← Finset.sum_add_distrib]
    exact Finset.sum_congr rfl fun j _ => by field_simp; ring] at h

theorem Tracks.powi (hf : Tracks x f a) (k : ℕ) : Tracks x (fun y => f y ^ k) (a.powi k) := by
  refine ⟨congrArg (· ^ k) hf.1, ?_⟩
  have h := (hasDerivAt_pow k (f x)).comp_hasFDerivAt x hf.2
  rwa [show ((k : ℝ) * f x ^ (k - 1)) • lin a.eps = lin (a.powi k).eps from lin_congr fun v => by
    show ((k : ℝ) * f x ^ (k - 1)) * lin a.eps v = (fun j => k * a.re ^ (k - 1) * a.eps j) ⬝ᵥ v
    rw [lin_apply, hf.1]
    simp only [dotProduct, Finset.mul_sum]
    exact Finset.sum_congr rfl fun j _ => by ring] at h

theorem Tracks.sqrt (hf : Tracks x f a) (h0 : f x ≠ 0) : Tracks x (fun y => Real.sqrt (f y)) a.sqrt := by
  refine ⟨congrArg Real.sqrt hf.1, ?_⟩
  have h := hf.2.sqrt h0
  rwa [show (1 / (2 * Real.sqrt (f x))) • lin a.eps = lin a.sqrt.eps from lin_congr fun v => by
    show (1 / (2 * Real.sqrt (f x))) * lin a.eps v = (fun j => a.eps j / (2 * Real.sqrt a.re)) ⬝ᵥ v
    rw [lin_apply, hf.1]
    simp only [dotProduct, Finset.mul_sum]
    exact Finset.sum_congr rfl fun j _ => by ring] at h

theorem Tracks.congr (hf : Tracks x f a) (h : ∀ y, f y = g y) : Tracks x g a := by
  have : f = g := funext h
  rwa [← this]

/-- The norm of three functions that do not vanish together. -/
theorem Tracks.norm3 {F : (Fin n → ℝ) → V3} {v : Fin 3 → Dual n} (hv : ∀ i, Tracks x (fun y => F y i) (v i))
    (h0 : F x ≠ 0) : Tracks x (fun y => nrm (F y)) (Dual.norm3 v) := by
  have hs : (F x 0) ^ 2 + (F x 1) ^ 2 + (F x 2) ^ 2 ≠ 0 := by
    intro e
    apply h0
    have h1 : F x 0 = 0 := by nlinarith [sq_nonneg (F x 0), sq_nonneg (F x 1), sq_nonneg (F x 2)]
    have h2 : F x 1 = 0 := by nlinarith [sq_nonneg (F x 0), sq_nonneg (F x 1), sq_nonneg (F x 2)]
    have h3 : F x 2 = 0 := by nlinarith [sq_nonneg (F x 0), sq_nonneg (F x 1), sq_nonneg (F x 2)]
    funext i
    fin_cases i <;> assumption
  refine (((((hv 0).powi 2).add ((hv 1).powi 2)).add ((hv 2).powi 2)).sqrt hs).congr fun y => ?_
  simp only [nrm, dotProduct, Fin.sum_univ_three]
  congr 1
  ring

/-- A vector of tracked components is tracked by the matrix of the derivatives. -/
theorem Tracks.vector {m : ℕ} {F : (Fin n → ℝ) → Fin m → ℝ} {v : Fin m → Dual n}
    (hv : ∀ i, Tracks x (fun y => F y i) (v i)) :
    F x = (fun i => (v i).re) ∧ HasFDerivAt F (linM (Matrix.of fun i j => (v i).eps j)) x :=
  ⟨funext fun i => (hv i).1.symm, hasFDerivAt_pi.mpr fun i => (hv i).2⟩

end

end Verif.Force
