import Verif.Mc.Model
import Mathlib.Analysis.Matrix.PosDef
import Mathlib.Analysis.Matrix.Spectrum
import Mathlib.Tactic.NoncommRing
import Mathlib.Algebra.Order.Star.Real
/-!
The factor of the covariance computed from a singular value decomposition.
-/
namespace Verif.Mc
open Matrix

/-- Specification of a singular value decomposition `C = U S Vᵀ`, in any order of the singular values. -/
def IsSvd {n : Nat} (c v : Matrix (Fin n) (Fin n) ℝ) (s : Fin n → ℝ) : Prop :=
  (∃ u : Matrix (Fin n) (Fin n) ℝ, uᵀ * u = 1 ∧ c = u * diagonal s * vᵀ) ∧ vᵀ * v = 1 ∧ ∀ i, 0 ≤ s i

/-- Specification: symmetric, and no direction of negative variance. -/
def IsCov {n : Nat} (c : Matrix (Fin n) (Fin n) ℝ) : Prop := cᵀ = c ∧ ∀ w : Fin n → ℝ, 0 ≤ w ⬝ᵥ (c *ᵥ w)

theorem isCov_iff {n : Nat} (c : Matrix (Fin n) (Fin n) ℝ) : IsCov c ↔ c.PosSemidef := by
  rw [posSemidef_iff_dotProduct_mulVec]
  simp [IsCov, IsHermitian, star_trivial]

theorem isCov_mul_transpose {m n : Nat} (w : Matrix (Fin n) (Fin m) ℝ) : IsCov (w * wᵀ) :=
  (isCov_iff _).2 (by simpa using posSemidef_self_mul_conjTranspose w)

/-- Two covariances with the same square are equal. -/
theorem cov_sqrt_unique {n : Nat} (b c : Matrix (Fin n) (Fin n) ℝ) (hb : IsCov b) (hc : IsCov c)
    (h : b * b = c * c) : b = c := by
  have hb' := (isCov_iff b).1 hb
  have hc' := (isCov_iff c).1 hc
  have hd : (b - c)ᵀ = b - c := by rw [transpose_sub, hb.1, hc.1]
  have e : (b - c) * (b + c) + (b + c) * (b - c) = 0 := by
    have : (b - c) * (b + c) + (b + c) * (b - c) = 2 • (b * b - c * c) := by noncomm_ring
    rw [this, h, sub_self, smul_zero]
  have pb : ((b - c) * b * (b - c)).PosSemidef := by
    have := hb'.mul_mul_conjTranspose_same (b - c)
    rwa [conjTranspose_eq_transpose_of_trivial, hd] at this
  have pc : ((b - c) * c * (b - c)).PosSemidef := by
    have := hc'.mul_mul_conjTranspose_same (b - c)
    rwa [conjTranspose_eq_transpose_of_trivial, hd] at this
  have ht : ((b - c) * (b + c) * (b - c)).trace = 0 := by
    have e2 : (b - c) * (b + c) * (b - c) + (b + c) * (b - c) * (b - c) = 0 := by
      rw [← Matrix.add_mul, e, Matrix.zero_mul]
    have e3 : ((b + c) * (b - c) * (b - c)).trace = ((b - c) * (b + c) * (b - c)).trace := by
      rw [trace_mul_comm, Matrix.mul_assoc]
    have e4 := congrArg trace e2
    rw [trace_add, e3, trace_zero] at e4
    linarith
  have hsum : ((b - c) * b * (b - c)).trace + ((b - c) * c * (b - c)).trace = 0 := by
    rw [← trace_add, ← ht]
    congr 1
    noncomm_ring
  have hb0 := pb.trace_eq_zero_iff.1 (by linarith [pb.trace_nonneg, pc.trace_nonneg])
  have hc0 := pc.trace_eq_zero_iff.1 (by linarith [pb.trace_nonneg, pc.trace_nonneg])
  have h3 : (b - c) * (b - c) * (b - c) = 0 := by
    have : (b - c) * (b - c) * (b - c) = (b - c) * b * (b - c) - (b - c) * c * (b - c) := by noncomm_ring
    rw [this, hb0, hc0, sub_self]
  have h4 : ((b - c) * (b - c))ᴴ * ((b - c) * (b - c)) = 0 := by
    rw [conjTranspose_eq_transpose_of_trivial, transpose_mul, hd,
      ← Matrix.mul_assoc, h3, Matrix.zero_mul]
  have h5 : (b - c)ᴴ * (b - c) = 0 := by
    rw [conjTranspose_eq_transpose_of_trivial, hd]
    exact conjTranspose_mul_self_eq_zero.1 h4
  exact sub_eq_zero.1 (conjTranspose_mul_self_eq_zero.1 h5)

theorem sqrtSV_eq (v : Matrix (Fin 9) (Fin 9) ℝ) (s : Fin 9 → ℝ) :
    sqrtSV v s = v * diagonal fun i => Real.sqrt (s i) := by
  ext i j
  simp [sqrtSV]

/-- **C115 (factor).** Whatever the singular value decomposition of a covariance, the factor `L = V √S` of the
generator reproduces it: `L Lᵀ = C`. -/
theorem svd_factor (c v : Matrix (Fin 9) (Fin 9) ℝ) (s : Fin 9 → ℝ) (hc : IsCov c) (h : IsSvd c v s) :
    sqrtSV v s * (sqrtSV v s)ᵀ = c := by
  obtain ⟨⟨u, hu, rfl⟩, hv, hs⟩ := h
  have e1 : sqrtSV v s * (sqrtSV v s)ᵀ = v * diagonal s * vᵀ := by
    rw [sqrtSV_eq, transpose_mul, diagonal_transpose, ← Matrix.mul_assoc, Matrix.mul_assoc v,
      diagonal_mul_diagonal]
    congr 3
    funext i
    exact Real.mul_self_sqrt (hs i)
  refine cov_sqrt_unique _ _ (isCov_mul_transpose _) hc ?_
  rw [e1]
  have e2 : (u * diagonal s * vᵀ) * (u * diagonal s * vᵀ) =
      (u * diagonal s * vᵀ)ᵀ * (u * diagonal s * vᵀ) := by rw [hc.1]
  rw [e2, transpose_mul, transpose_mul, transpose_transpose, diagonal_transpose]
  calc v * diagonal s * vᵀ * (v * diagonal s * vᵀ)
      = v * diagonal s * (vᵀ * v) * diagonal s * vᵀ := by simp only [Matrix.mul_assoc]
    _ = v * diagonal s * (uᵀ * u) * diagonal s * vᵀ := by rw [hu, hv]
    _ = v * (diagonal s * uᵀ) * (u * diagonal s * vᵀ) := by simp only [Matrix.mul_assoc]

/-- A diagonal covariance with its decomposition. -/
example (s : Fin 9 → ℝ) (hs : ∀ i, 0 ≤ s i) : IsCov (diagonal s) ∧ IsSvd (diagonal s) 1 s := by
  refine ⟨(isCov_iff _).2 (PosSemidef.diagonal hs), ⟨1, by simp, by simp⟩, by simp, hs⟩

end Verif.Mc
