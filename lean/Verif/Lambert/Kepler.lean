import Mathlib.Analysis.SpecialFunctions.Trigonometric.Deriv
import Mathlib.Analysis.SpecialFunctions.Trigonometric.DerivHyp
import Mathlib.Analysis.Calculus.InverseFunctionTheorem.Deriv
import Mathlib.Analysis.Calculus.ContDiff.RCLike
import Mathlib.Analysis.Calculus.Deriv.Prod
import Mathlib.Analysis.SpecialFunctions.Sqrt
import Mathlib.Analysis.Calculus.Deriv.MeanValue
import Mathlib.Topology.Order.IntermediateValue
import Mathlib.Tactic.LinearCombination
import Verif.MathU.Angles
import Verif.MathU.Vectors
/-!
Specification of the Lambert solvers: motion under Newton's two-body law, and its solution in universal variables.
Nothing here models code in /repo.
-/
namespace Verif.Lambert
open Matrix
open Verif.MathU (V3 nrm dot3 nrm_sq nrm_nonneg ext3 cross0 cross1 cross2)

/-- Starting from `r1` with the velocity `v1`, motion under the attraction of a point mass of parameter `μ` reaches
`r2` with the velocity `v2` after the time `T`, without passing through the attracting point. -/
def Reaches (μ : ℝ) (r1 v1 r2 v2 : V3) (T : ℝ) : Prop :=
  0 < T ∧ ∃ ρ ν : ℝ → V3, ρ 0 = r1 ∧ ν 0 = v1 ∧ ρ T = r2 ∧ ν T = v2 ∧
    ∀ t ∈ Set.Icc 0 T, ρ t ≠ 0 ∧ HasDerivAt ρ (ν t) t ∧ HasDerivAt ν ((-μ / nrm (ρ t) ^ 3) • ρ t) t

/-- The universal functions of the parameter `α`: four functions, each the derivative of the next one. -/
structure Universal (α : ℝ) (u0 u1 u2 u3 : ℝ → ℝ) : Prop where
  d0 : ∀ s, HasDerivAt u0 (-α * u1 s) s
  d1 : ∀ s, HasDerivAt u1 (u0 s) s
  d2 : ∀ s, HasDerivAt u2 (u1 s) s
  d3 : ∀ s, HasDerivAt u3 (u2 s) s
  z0 : u0 0 = 1
  z1 : u1 0 = 0
  z2 : u2 0 = 0
  z3 : u3 0 = 0

/-- Replace the value of a derivative. -/
theorem hd {E : Type*} [NormedAddCommGroup E] [NormedSpace ℝ E] {f : ℝ → E} {a b : E} {s : ℝ}
    (h : HasDerivAt f a s) (e : a = b) : HasDerivAt f b s := e ▸ h

/-- A function of derivative zero is constant. -/
theorem const_of_deriv {f : ℝ → ℝ} (h : ∀ s, HasDerivAt f 0 s) (s : ℝ) : f s = f 0 :=
  is_const_of_deriv_eq_zero (fun s => (h s).differentiableAt) (fun s => (h s).deriv) s 0

theorem Universal.sum {α : ℝ} {u0 u1 u2 u3 : ℝ → ℝ} (h : Universal α u0 u1 u2 u3) (s : ℝ) :
    u0 s + α * u2 s = 1 := by
  have := const_of_deriv (f := fun s => u0 s + α * u2 s)
    (fun s => hd ((h.d0 s).add ((h.d2 s).const_mul α)) (by ring)) s
  simpa [h.z0, h.z2] using this

theorem Universal.sum1 {α : ℝ} {u0 u1 u2 u3 : ℝ → ℝ} (h : Universal α u0 u1 u2 u3) (s : ℝ) :
    u1 s + α * u3 s = s := by
  have := const_of_deriv (f := fun s => u1 s + α * u3 s - s)
    (fun s => by
      have := ((h.d1 s).add ((h.d3 s).const_mul α)).sub (hasDerivAt_id s)
      rw [h.sum s, sub_self] at this
      exact this) s
  simp only [h.z1, h.z3] at this
  linarith

theorem Universal.square {α : ℝ} {u0 u1 u2 u3 : ℝ → ℝ} (h : Universal α u0 u1 u2 u3) (s : ℝ) :
    u1 s ^ 2 + α * u2 s ^ 2 = 2 * u2 s := by
  have := const_of_deriv (f := fun s => u1 s * u1 s + α * (u2 s * u2 s) - 2 * u2 s)
    (fun s => by
      have := (((h.d1 s).mul (h.d1 s)).add (((h.d2 s).mul (h.d2 s)).const_mul α)).sub ((h.d2 s).const_mul 2)
      refine hd this ?_
      have e := h.sum s
      linear_combination (2 * u1 s) * e) s
  simp only [h.z1, h.z2] at this
  nlinarith

/-- The universal functions exist for every parameter. -/
theorem universal_elliptic {α : ℝ} (hα : 0 < α) :
    Universal α (fun s => Real.cos (Real.sqrt α * s)) (fun s => Real.sin (Real.sqrt α * s) / Real.sqrt α)
      (fun s => (1 - Real.cos (Real.sqrt α * s)) / α)
      (fun s => (s - Real.sin (Real.sqrt α * s) / Real.sqrt α) / α) := by
  have hq : Real.sqrt α * Real.sqrt α = α := Real.mul_self_sqrt hα.le
  have hp : 0 < Real.sqrt α := Real.sqrt_pos.2 hα
  have hl : ∀ s, HasDerivAt (fun s => Real.sqrt α * s) (Real.sqrt α) s := fun s => by
    simpa using (hasDerivAt_id s).const_mul (Real.sqrt α)
  have hc : ∀ s, HasDerivAt (fun s => Real.cos (Real.sqrt α * s)) (-Real.sin (Real.sqrt α * s) * Real.sqrt α) s :=
    fun s => (hl s).cos
  have hs : ∀ s, HasDerivAt (fun s => Real.sin (Real.sqrt α * s) / Real.sqrt α) (Real.cos (Real.sqrt α * s)) s :=
    fun s => by
      refine hd (((hl s).sin).div_const (Real.sqrt α)) ?_
      field_simp
  refine ⟨fun s => ?_, hs, fun s => ?_, fun s => ?_, by simp, by simp, by simp, by simp⟩
  · refine hd (hc s) ?_
    rw [← mul_div_assoc, eq_div_iff hp.ne', mul_assoc, hq]
    ring
  · refine hd (((hc s).const_sub 1).div_const α) ?_
    rw [div_eq_div_iff hα.ne' hp.ne', neg_mul, mul_assoc (-Real.sin _), hq]
    ring
  · exact ((hasDerivAt_id s).sub (hs s)).div_const α

theorem universal_hyperbolic {α : ℝ} (hα : α < 0) :
    Universal α (fun s => Real.cosh (Real.sqrt (-α) * s)) (fun s => Real.sinh (Real.sqrt (-α) * s) / Real.sqrt (-α))
      (fun s => (1 - Real.cosh (Real.sqrt (-α) * s)) / α)
      (fun s => (s - Real.sinh (Real.sqrt (-α) * s) / Real.sqrt (-α)) / α) := by
  have hn : 0 < -α := by linarith
  have hq : Real.sqrt (-α) * Real.sqrt (-α) = -α := Real.mul_self_sqrt hn.le
  have hp : 0 < Real.sqrt (-α) := Real.sqrt_pos.2 hn
  have hl : ∀ s, HasDerivAt (fun s => Real.sqrt (-α) * s) (Real.sqrt (-α)) s := fun s => by
    simpa using (hasDerivAt_id s).const_mul (Real.sqrt (-α))
  have hc : ∀ s, HasDerivAt (fun s => Real.cosh (Real.sqrt (-α) * s))
      (Real.sinh (Real.sqrt (-α) * s) * Real.sqrt (-α)) s := fun s => (hl s).cosh
  have hs : ∀ s, HasDerivAt (fun s => Real.sinh (Real.sqrt (-α) * s) / Real.sqrt (-α))
      (Real.cosh (Real.sqrt (-α) * s)) s :=
    fun s => by
      refine hd (((hl s).sinh).div_const (Real.sqrt (-α))) ?_
      field_simp
  refine ⟨fun s => ?_, hs, fun s => ?_, fun s => ?_, by simp, by simp, by simp, by simp⟩
  · refine hd (hc s) ?_
    rw [← mul_div_assoc, eq_div_iff hp.ne', mul_assoc, hq]
    ring
  · refine hd (((hc s).const_sub 1).div_const α) ?_
    rw [div_eq_div_iff hα.ne hp.ne', neg_mul, mul_assoc, hq]
    ring
  · exact ((hasDerivAt_id s).sub (hs s)).div_const α

theorem universal_parabolic :
    Universal 0 (fun _ => 1) (fun s => s) (fun s => s ^ 2 / 2) (fun s => s ^ 3 / 6) := by
  refine ⟨fun s => hd (hasDerivAt_const s (1 : ℝ)) (by simp), fun s => hasDerivAt_id s, fun s => ?_, fun s => ?_,
    rfl, rfl, by simp, by simp⟩
  · exact hd (((hasDerivAt_id s).pow 2).div_const 2) (by simp)
  · exact hd (((hasDerivAt_id s).pow 3).div_const 6) (by simp; ring)

theorem exists_universal (α : ℝ) : ∃ u0 u1 u2 u3, Universal α u0 u1 u2 u3 := by
  rcases lt_trichotomy α 0 with h | h | h
  · exact ⟨_, _, _, _, universal_hyperbolic h⟩
  · exact ⟨_, _, _, _, h ▸ universal_parabolic⟩
  · exact ⟨_, _, _, _, universal_elliptic h⟩

/-- Lagrange's identity. -/
theorem lagrange (a b : V3) : (a ⨯₃ b) ⬝ᵥ (a ⨯₃ b) = (a ⬝ᵥ a) * (b ⬝ᵥ b) - (a ⬝ᵥ b) ^ 2 := by
  simp only [dot3, cross0, cross1, cross2]; ring

theorem dot_self_eq_zero {v : V3} (h : v ⬝ᵥ v = 0) : v = 0 := dotProduct_self_eq_zero.1 h

theorem nrm_ne_zero_of_cross {a b : V3} (h : a ⨯₃ b ≠ 0) : 0 < nrm a ∧ 0 < nrm b := by
  constructor
  · refine Verif.MathU.nrm_pos a fun e => h ?_
    rw [e]; simp
  · refine Verif.MathU.nrm_pos b fun e => h ?_
    rw [e]; simp

/-- The solution of the two-body problem in universal variables: a motion that is not rectilinear, advanced by the
universal anomaly `X > 0`, reaches the position `F r1 + G v1` at the time `τ`. -/
theorem universal_motion {μ α : ℝ} (hμ : 0 < μ) {u0 u1 u2 u3 : ℝ → ℝ} (h : Universal α u0 u1 u2 u3) {r1 v1 : V3}
    (hh : r1 ⨯₃ v1 ≠ 0) (hα : α = 2 / nrm r1 - (v1 ⬝ᵥ v1) / μ) (X : ℝ) (hX : 0 < X) (r2 v2 : V3) (T : ℝ)
    (hT : Real.sqrt μ * T = nrm r1 * u1 X + r1 ⬝ᵥ v1 / Real.sqrt μ * u2 X + u3 X)
    (hr2 : r2 = (1 - u2 X / nrm r1) • r1 + (T - u3 X / Real.sqrt μ) • v1)
    (hv2 : (T - u3 X / Real.sqrt μ) • v2 = (1 - u2 X / nrm r2) • r2 - r1)
    (hg : T - u3 X / Real.sqrt μ ≠ 0) : Reaches μ r1 v1 r2 v2 T := by
  obtain ⟨hr, -⟩ := nrm_ne_zero_of_cross hh
  set m := Real.sqrt μ with hm
  have hm0 : 0 < m := Real.sqrt_pos.2 hμ
  have hmm : m * m = μ := Real.mul_self_sqrt hμ.le
  set n := nrm r1 with hn
  set σ := r1 ⬝ᵥ v1 / m with hσ
  have hnn : n * n = r1 ⬝ᵥ r1 := nrm_sq r1
  have hrv : r1 ⬝ᵥ v1 = σ * m := by rw [hσ]; field_simp
  clear_value σ
  have hvv : n * (v1 ⬝ᵥ v1) = μ * (2 - α * n) := by rw [hα]; field_simp; ring
  have hL : 0 < (r1 ⬝ᵥ r1) * (v1 ⬝ᵥ v1) - (r1 ⬝ᵥ v1) ^ 2 := by
    rw [← lagrange]
    rcases (Verif.MathU.dot_self_nonneg (r1 ⨯₃ v1)).lt_or_eq with h' | h'
    · exact h'
    · exact absurd (dot_self_eq_zero h'.symm) hh
  have hL' : 0 < n * (2 - α * n) - σ ^ 2 := by
    have : μ * (n * (2 - α * n) - σ ^ 2) = (r1 ⬝ᵥ r1) * (v1 ⬝ᵥ v1) - (r1 ⬝ᵥ v1) ^ 2 := by
      rw [← hnn, hrv]
      linear_combination (-n) * hvv + σ ^ 2 * hmm
    rw [← this] at hL
    exact (mul_pos_iff_of_pos_left hμ).1 hL
  -- the curve
  let R : ℝ → ℝ := fun s => n * u0 s + σ * u1 s + u2 s
  let τ : ℝ → ℝ := fun s => (n * u1 s + σ * u2 s + u3 s) / m
  let F : ℝ → ℝ := fun s => 1 - u2 s / n
  let G : ℝ → ℝ := fun s => (n * u1 s + σ * u2 s) / m
  let q : ℝ → V3 := fun s => F s • r1 + G s • v1
  let w : ℝ → V3 := fun s => (-(m * u1 s) / (n * R s)) • r1 + (1 - u2 s / R s) • v1
  have hR2 : ∀ s, q s ⬝ᵥ q s = R s ^ 2 := by
    intro s
    have e1 := h.sum s
    have e2 := h.square s
    have : q s ⬝ᵥ q s = F s ^ 2 * (r1 ⬝ᵥ r1) + 2 * (F s * G s) * (r1 ⬝ᵥ v1) + G s ^ 2 * (v1 ⬝ᵥ v1) := by
      simp only [q, dot3, Pi.add_apply, Pi.smul_apply, smul_eq_mul]; ring
    have hv : v1 ⬝ᵥ v1 = m * m * (2 - α * n) / n := by rw [hmm, eq_div_iff hr.ne', ← hvv]; ring
    rw [this, ← hnn, hrv, hv]
    simp only [F, G, R]
    have e0 : u0 s = 1 - α * u2 s := by linarith
    rw [e0]
    field_simp
    have e2' : u1 s ^ 2 = 2 * u2 s - α * u2 s ^ 2 := by linarith
    linear_combination (n * (2 * n * 1 - α * n ^ 2) - n * σ ^ 2) * e2'
  have hRn : ∀ s, nrm (q s) = |R s| := by
    intro s
    have : nrm (q s) = Real.sqrt (q s ⬝ᵥ q s) := rfl
    rw [this, hR2, Real.sqrt_sq_eq_abs]
  have hRne : ∀ s, R s ≠ 0 := by
    intro s hs
    have e1 := h.sum s
    have e2 := h.square s
    have hq0 : q s = 0 := dot_self_eq_zero (by rw [hR2, hs]; ring)
    have hF : F s = 0 := by
      have : (q s) ⨯₃ v1 = F s • (r1 ⨯₃ v1) := by
        simp only [q]
        rw [LinearMap.map_add₂, LinearMap.map_smul₂, LinearMap.map_smul₂, cross_self]; simp
      rw [hq0] at this
      simp only [map_zero, LinearMap.zero_apply] at this
      exact (smul_eq_zero.1 this.symm).resolve_right hh
    have hG : G s = 0 := by
      have : r1 ⨯₃ (q s) = G s • (r1 ⨯₃ v1) := by
        simp only [q]
        rw [map_add, map_smul, map_smul, cross_self]; simp
      rw [hq0] at this
      simp only [map_zero] at this
      exact (smul_eq_zero.1 this.symm).resolve_right hh
    have f2 : u2 s = n := by
      simp only [F] at hF
      field_simp at hF
      linarith
    have g2 : n * u1 s + σ * u2 s = 0 := by
      simp only [G] at hG
      rcases div_eq_zero_iff.1 hG with h' | h'
      · exact h'
      · exact absurd h' hm0.ne'
    have g3 : u1 s = -σ := by
      rw [f2] at g2
      have : n * (u1 s + σ) = 0 := by linarith
      rcases mul_eq_zero.1 this with h' | h'
      · exact absurd h' hr.ne'
      · linarith
    rw [f2, g3] at e2
    nlinarith
  have hRpos : ∀ s, 0 < R s := by
    have hc : Continuous R := by
      have c0 : Continuous u0 := continuous_iff_continuousAt.2 fun s => (h.d0 s).continuousAt
      have c1 : Continuous u1 := continuous_iff_continuousAt.2 fun s => (h.d1 s).continuousAt
      have c2 : Continuous u2 := continuous_iff_continuousAt.2 fun s => (h.d2 s).continuousAt
      exact ((continuous_const.mul c0).add (continuous_const.mul c1)).add c2
    intro s
    by_contra hs
    have hs' : R s < 0 := lt_of_le_of_ne (not_lt.1 hs) (hRne s)
    have h0 : 0 < R 0 := by simp only [R, h.z0, h.z1, h.z2]; linarith
    obtain ⟨x, hx⟩ := mem_range_of_exists_le_of_exists_ge hc ⟨s, hs'.le⟩ ⟨0, h0.le⟩
    exact hRne x hx
  have hqR : ∀ s, nrm (q s) = R s := fun s => by rw [hRn, abs_of_pos (hRpos s)]
  have dτ : ∀ s, HasDerivAt τ (R s / m) s := fun s =>
    ((((h.d1 s).const_mul n).add ((h.d2 s).const_mul σ)).add (h.d3 s)).div_const m
  have dR : ∀ s, HasDerivAt R (n * (-α * u1 s) + σ * u0 s + u1 s) s := fun s =>
    (((h.d0 s).const_mul n).add ((h.d1 s).const_mul σ)).add (h.d2 s)
  have dF : ∀ s, HasDerivAt F (-(u1 s / n)) s := fun s => ((h.d2 s).div_const n).const_sub 1
  have dG : ∀ s, HasDerivAt G ((n * u0 s + σ * u1 s) / m) s := fun s =>
    (((h.d1 s).const_mul n).add ((h.d2 s).const_mul σ)).div_const m
  have dq : ∀ s, HasDerivAt q ((R s / m) • w s) s := by
    intro s
    have := ((dF s).smul_const r1).add ((dG s).smul_const v1)
    refine hd this ?_
    simp only [w, smul_add, smul_smul]
    congr 2
    · have := hRne s
      field_simp
    · have := hRne s
      field_simp
      simp only [R]; ring
  have dw : ∀ s, HasDerivAt w ((R s / m) • ((-μ / nrm (q s) ^ 3) • q s)) s := by
    intro s
    have hRs := hRne s
    have e1 := h.sum s
    have e2 := h.square s
    have dA : HasDerivAt (fun s => -(m * u1 s) / (n * R s))
        (-(m / n) * ((u0 s * R s - u1 s * (n * (-α * u1 s) + σ * u0 s + u1 s)) / R s ^ 2)) s := by
      have := (((h.d1 s).const_mul m).neg).div ((dR s).const_mul n) (mul_ne_zero hr.ne' hRs)
      refine hd this ?_
      simp only [Pi.neg_apply]
      field_simp
      ring
    have dB : HasDerivAt (fun s => 1 - u2 s / R s)
        (-((u1 s * R s - u2 s * (n * (-α * u1 s) + σ * u0 s + u1 s)) / R s ^ 2)) s :=
      ((h.d2 s).div (dR s) hRs).const_sub 1
    have := (dA.smul_const r1).add (dB.smul_const v1)
    refine hd this ?_
    rw [hqR]
    simp only [q, smul_add, smul_smul]
    have k1 : u0 s * R s - u1 s * (n * (-α * u1 s) + σ * u0 s + u1 s) = n * F s := by
      simp only [R, F]
      field_simp
      have e0 : u0 s = 1 - α * u2 s := by linarith
      rw [e0]
      linear_combination (α * n - 1) * e2
    have k2 : u1 s * R s - u2 s * (n * (-α * u1 s) + σ * u0 s + u1 s) = m * G s := by
      simp only [R, G]
      field_simp
      have e0 : u0 s = 1 - α * u2 s := by linarith
      rw [e0]
      linear_combination σ * e2
    rw [k1, k2, ← hmm]
    congr 2
    · field_simp
    · field_simp
  -- parametrize by the time
  have hmono : StrictMono τ := strictMono_of_deriv_pos fun s => by
    rw [(dτ s).deriv]; exact div_pos (hRpos s) hm0
  have hinj := hmono.injective
  let ι : ℝ → ℝ := Function.invFun τ
  have hι : ∀ s, ι (τ s) = s := Function.leftInverse_invFun hinj
  have cR : Continuous R := continuous_iff_continuousAt.2 fun s => (dR s).continuousAt
  have sτ : ∀ s, HasStrictDerivAt τ (R s / m) s := fun s =>
    hasStrictDerivAt_of_hasDerivAt_of_continuousAt (Filter.Eventually.of_forall dτ)
      (cR.div_const m).continuousAt
  have dι : ∀ s, HasDerivAt ι (R s / m)⁻¹ (τ s) := fun s =>
    (HasStrictDerivAt.to_local_left_inverse (sτ s) (div_pos (hRpos s) hm0).ne' (Filter.Eventually.of_forall hι)).hasDerivAt
  have hτ0 : τ 0 = 0 := by simp only [τ, h.z1, h.z2, h.z3]; simp
  have hι0 : ι 0 = 0 := by
    have := hι 0
    rwa [hτ0] at this
  have hτX : τ X = T := by
    simp only [τ]
    rw [div_eq_iff hm0.ne', ← hT]; ring
  have hGX : G X = T - u3 X / m := by
    rw [← hτX]; simp only [τ, G]; field_simp; ring
  have hq2 : q X = r2 := by rw [hr2, ← hGX]
  have hRX : R X = nrm r2 := by rw [← hq2, hqR]
  refine ⟨by rw [← hτX, ← hτ0]; exact hmono hX, fun t => q (ι t), fun t => w (ι t), ?_, ?_, ?_, ?_, ?_⟩
  · show q (ι 0) = r1
    rw [hι0]
    simp [q, F, G, h.z1, h.z2]
  · show w (ι 0) = v1
    rw [hι0]
    simp [w, h.z1, h.z2]
  · show q (ι T) = r2
    rw [← hτX, hι, hq2]
  · show w (ι T) = v2
    rw [← hτX, hι]
    have hg' : G X ≠ 0 := by rw [hGX]; exact hg
    have key : G X • w X = G X • v2 := by
      rw [hGX, hv2, ← hRX, hr2, ← hGX]
      simp only [w, smul_add, smul_smul]
      have hRs := hRne X
      have e1 := h.sum X
      have e2 := h.square X
      have k : G X * (-(m * u1 X) / (n * R X)) = (1 - u2 X / R X) * (1 - u2 X / n) - 1 := by
        simp only [G]
        field_simp
        simp only [R]
        have e0 : u0 X = 1 - α * u2 X := by linarith
        rw [e0]
        linear_combination (-n) * e2
      rw [k, sub_smul, one_smul]
      rw [mul_comm (G X) (1 - u2 X / R X)]
      abel
    exact smul_right_injective V3 hg' key
  · intro t ht
    have hc : ContinuousOn τ (Set.Icc 0 X) := fun s _ => (dτ s).continuousAt.continuousWithinAt
    obtain ⟨s, -, rfl⟩ := intermediate_value_Icc hX.le hc (by rw [hτ0, hτX]; exact ht)
    have hk : (R s / m) ≠ 0 := (div_pos (hRpos s) hm0).ne'
    refine ⟨?_, ?_, ?_⟩
    · show q (ι (τ s)) ≠ 0
      rw [hι]
      intro e
      have := hqR s
      rw [e] at this
      have z : nrm (0 : V3) = 0 := by simp [nrm]
      rw [z] at this
      exact hRne s this.symm
    · have a : HasDerivAt q ((R s / m) • w s) (ι (τ s)) := by rw [hι]; exact dq s
      have := a.scomp (τ s) (dι s)
      simp only [smul_smul, inv_mul_cancel₀ hk, one_smul] at this
      show HasDerivAt (q ∘ ι) (w (ι (τ s))) (τ s)
      rw [hι]; exact this
    · have a : HasDerivAt w ((R s / m) • ((-μ / nrm (q s) ^ 3) • q s)) (ι (τ s)) := by rw [hι]; exact dw s
      have := a.scomp (τ s) (dι s)
      rw [smul_smul, inv_mul_cancel₀ hk, one_smul] at this
      show HasDerivAt (w ∘ ι) ((-μ / nrm (q (ι (τ s))) ^ 3) • q (ι (τ s))) (τ s)
      rw [hι]; exact this

/-- The eccentricity vector of the orbit through `r` with the velocity `v`. -/
noncomputable def ecc (μ : ℝ) (r v : V3) : V3 := (1 / μ) • (v ⨯₃ (r ⨯₃ v)) - (1 / nrm r) • r

/-- The specific energy. -/
noncomputable def energy (μ : ℝ) (r v : V3) : ℝ := v ⬝ᵥ v / 2 - μ / nrm r

theorem const_on {f : ℝ → ℝ} {T : ℝ} (hT : 0 ≤ T) (h : ∀ t ∈ Set.Icc 0 T, HasDerivAt f 0 t) : f T = f 0 :=
  constant_of_has_deriv_right_zero (fun t ht => (h t ht).continuousAt.continuousWithinAt)
    (fun t ht => (h t ⟨ht.1, ht.2.le⟩).hasDerivWithinAt) T ⟨hT, le_rfl⟩

theorem hasDerivAt_dot {a b : ℝ → V3} {a' b' : V3} {t : ℝ} (ha : HasDerivAt a a' t) (hb : HasDerivAt b b' t) :
    HasDerivAt (fun t => a t ⬝ᵥ b t) (a' ⬝ᵥ b t + a t ⬝ᵥ b') t := by
  have pa := hasDerivAt_pi.1 ha
  have pb := hasDerivAt_pi.1 hb
  have e : (fun t => a t ⬝ᵥ b t) = fun t => a t 0 * b t 0 + a t 1 * b t 1 + a t 2 * b t 2 := by
    funext t; rw [dot3]
  rw [e]
  refine hd ((((pa 0).mul (pb 0)).add ((pa 1).mul (pb 1))).add ((pa 2).mul (pb 2))) ?_
  simp only [dot3]; ring

theorem hasDerivAt_nrm {a : ℝ → V3} {a' : V3} {t : ℝ} (ha : HasDerivAt a a' t) (h0 : a t ≠ 0) :
    HasDerivAt (fun t => nrm (a t)) (a t ⬝ᵥ a' / nrm (a t)) t := by
  have hp : 0 < nrm (a t) := Verif.MathU.nrm_pos _ h0
  have hne : a t ⬝ᵥ a t ≠ 0 := by rw [← nrm_sq]; positivity
  refine hd ((hasDerivAt_dot ha ha).sqrt hne) ?_
  have : nrm (a t) = Real.sqrt (a t ⬝ᵥ a t) := rfl
  rw [← this, dotProduct_comm a' (a t)]
  field_simp
  ring

/-- The angular momentum, the eccentricity vector and the energy do not change along a motion. -/
theorem Reaches.conserved {μ : ℝ} (hμ : 0 < μ) {r1 v1 r2 v2 : V3} {T : ℝ} (h : Reaches μ r1 v1 r2 v2 T) :
    r2 ⨯₃ v2 = r1 ⨯₃ v1 ∧ ecc μ r2 v2 = ecc μ r1 v1 ∧ energy μ r2 v2 = energy μ r1 v1 := by
  obtain ⟨hT, ρ, ν, h0, h1, h2, h3, hd'⟩ := h
  have key : ∀ f : V3 → V3 → ℝ, (∀ t ∈ Set.Icc 0 T, HasDerivAt (fun t => f (ρ t) (ν t)) 0 t) → f r2 v2 = f r1 v1 := by
    intro f hf
    have := const_on hT.le hf
    simpa [h0, h1, h2, h3] using this
  have pr : ∀ t ∈ Set.Icc 0 T, ∀ i, HasDerivAt (fun t => ρ t i) (ν t i) t := fun t ht =>
    hasDerivAt_pi.1 (hd' t ht).2.1
  have pv : ∀ t ∈ Set.Icc 0 T, ∀ i, HasDerivAt (fun t => ν t i) (-μ / nrm (ρ t) ^ 3 * ρ t i) t := fun t ht =>
    hasDerivAt_pi.1 (hd' t ht).2.2
  have dh0 : ∀ t ∈ Set.Icc 0 T, HasDerivAt (fun t => (ρ t ⨯₃ ν t) 0) 0 t := fun t ht => by
    simp only [cross0]
    exact hd (((pr t ht 1).mul (pv t ht 2)).sub ((pr t ht 2).mul (pv t ht 1))) (by ring)
  have dh1 : ∀ t ∈ Set.Icc 0 T, HasDerivAt (fun t => (ρ t ⨯₃ ν t) 1) 0 t := fun t ht => by
    simp only [cross1]
    exact hd (((pr t ht 2).mul (pv t ht 0)).sub ((pr t ht 0).mul (pv t ht 2))) (by ring)
  have dh2 : ∀ t ∈ Set.Icc 0 T, HasDerivAt (fun t => (ρ t ⨯₃ ν t) 2) 0 t := fun t ht => by
    simp only [cross2]
    exact hd (((pr t ht 0).mul (pv t ht 1)).sub ((pr t ht 1).mul (pv t ht 0))) (by ring)
  have dn : ∀ t ∈ Set.Icc 0 T, HasDerivAt (fun t => nrm (ρ t)) (ρ t ⬝ᵥ ν t / nrm (ρ t)) t := fun t ht =>
    hasDerivAt_nrm (hd' t ht).2.1 (hd' t ht).1
  have pn : ∀ t ∈ Set.Icc 0 T, 0 < nrm (ρ t) := fun t ht => Verif.MathU.nrm_pos _ (hd' t ht).1
  have sq : ∀ t, nrm (ρ t) ^ 2 = ρ t 0 * ρ t 0 + ρ t 1 * ρ t 1 + ρ t 2 * ρ t 2 := fun t => by
    rw [← dot3, ← nrm_sq]; ring
  refine ⟨ext3 (key (fun r v => (r ⨯₃ v) 0) dh0) (key (fun r v => (r ⨯₃ v) 1) dh1)
    (key (fun r v => (r ⨯₃ v) 2) dh2), ?_, ?_⟩
  · have comp : ∀ i, (∀ t ∈ Set.Icc 0 T, HasDerivAt (fun t => ecc μ (ρ t) (ν t) i) 0 t) →
        ecc μ r2 v2 i = ecc μ r1 v1 i := fun i hi => key (fun r v => ecc μ r v i) hi
    refine ext3 (comp 0 fun t ht => ?_) (comp 1 fun t ht => ?_) (comp 2 fun t ht => ?_)
    · have e : (fun t => ecc μ (ρ t) (ν t) 0) = fun t =>
          1 / μ * (ν t 1 * (ρ t ⨯₃ ν t) 2 - ν t 2 * (ρ t ⨯₃ ν t) 1) - ρ t 0 / nrm (ρ t) := by
        funext t; simp only [ecc, Pi.sub_apply, Pi.smul_apply, smul_eq_mul, cross0 (ν t)]; ring
      rw [e]
      refine hd (((((pv t ht 1).mul (dh2 t ht)).sub ((pv t ht 2).mul (dh1 t ht))).const_mul (1 / μ)).sub
        ((pr t ht 0).div (dn t ht) (pn t ht).ne')) ?_
      have := pn t ht
      simp only [cross1, cross2, dot3]
      field_simp
      rw [sq]; ring
    · have e : (fun t => ecc μ (ρ t) (ν t) 1) = fun t =>
          1 / μ * (ν t 2 * (ρ t ⨯₃ ν t) 0 - ν t 0 * (ρ t ⨯₃ ν t) 2) - ρ t 1 / nrm (ρ t) := by
        funext t; simp only [ecc, Pi.sub_apply, Pi.smul_apply, smul_eq_mul, cross1 (ν t)]; ring
      rw [e]
      refine hd (((((pv t ht 2).mul (dh0 t ht)).sub ((pv t ht 0).mul (dh2 t ht))).const_mul (1 / μ)).sub
        ((pr t ht 1).div (dn t ht) (pn t ht).ne')) ?_
      have := pn t ht
      simp only [cross0, cross2, dot3]
      field_simp
      rw [sq]; ring
    · have e : (fun t => ecc μ (ρ t) (ν t) 2) = fun t =>
          1 / μ * (ν t 0 * (ρ t ⨯₃ ν t) 1 - ν t 1 * (ρ t ⨯₃ ν t) 0) - ρ t 2 / nrm (ρ t) := by
        funext t; simp only [ecc, Pi.sub_apply, Pi.smul_apply, smul_eq_mul, cross2 (ν t)]; ring
      rw [e]
      refine hd (((((pv t ht 0).mul (dh1 t ht)).sub ((pv t ht 1).mul (dh0 t ht))).const_mul (1 / μ)).sub
        ((pr t ht 2).div (dn t ht) (pn t ht).ne')) ?_
      have := pn t ht
      simp only [cross0, cross1, dot3]
      field_simp
      rw [sq]; ring
  · refine key (energy μ) fun t ht => ?_
    have := pn t ht
    refine hd (((hasDerivAt_dot (hd' t ht).2.2 (hd' t ht).2.2).div_const 2).sub
      ((hasDerivAt_const t μ).div (dn t ht) this.ne')) ?_
    simp only [dotProduct_smul, smul_dotProduct, smul_eq_mul, dotProduct_comm (ν t) (ρ t)]
    field_simp
    ring

end Verif.Lambert
