import Verif.Lambert.Model
import Verif.Lambert.Kepler
/-!
The solver of Gooding: the velocities it returns lie on one orbit through both positions, in the direction asked for,
and the flight on this orbit lasts the time asked for.
-/
namespace Verif.Lambert
open Matrix
open Verif.MathU (V3 nrm atan2 dot3 nrm_sq nrm_nonneg ext3 cross0 cross1 cross2)

theorem dot_le (a b : V3) : (a ⬝ᵥ b) ^ 2 ≤ (nrm a * nrm b) ^ 2 := by
  have h := Verif.MathU.dot_self_nonneg (a ⨯₃ b)
  rw [lagrange, ← nrm_sq a, ← nrm_sq b] at h
  nlinarith

theorem abs_dot_le (a b : V3) : |a ⬝ᵥ b| ≤ nrm a * nrm b := by
  have := dot_le a b
  have hn : 0 ≤ nrm a * nrm b := mul_nonneg (nrm_nonneg a) (nrm_nonneg b)
  exact abs_le_of_sq_le_sq this hn

theorem dot_lt_of_cross {a b : V3} (h : a ⨯₃ b ≠ 0) : |a ⬝ᵥ b| < nrm a * nrm b := by
  have hp : 0 < (a ⨯₃ b) ⬝ᵥ (a ⨯₃ b) := by
    rcases (Verif.MathU.dot_self_nonneg (a ⨯₃ b)).lt_or_eq with h' | h'
    · exact h'
    · exact absurd (dot_self_eq_zero h'.symm) h
  rw [lagrange, ← nrm_sq a, ← nrm_sq b] at hp
  have hn : 0 ≤ nrm a * nrm b := mul_nonneg (nrm_nonneg a) (nrm_nonneg b)
  refine abs_lt_of_sq_lt_sq (by nlinarith) hn

theorem goodA_sq (dm : ℝ) {r1 r2 : V3} (h1 : 0 < nrm r1) (h2 : 0 < nrm r2) :
    goodA dm r1 r2 ^ 2 = dm ^ 2 * (nrm r1 * nrm r2 + r1 ⬝ᵥ r2) := by
  have hp : 0 < nrm r1 * nrm r2 := mul_pos h1 h2
  have e : nrm r1 * nrm r2 * (1 + r1 ⬝ᵥ r2 / (nrm r1 * nrm r2)) = nrm r1 * nrm r2 + r1 ⬝ᵥ r2 := by
    field_simp
  have hd := neg_abs_le (r1 ⬝ᵥ r2)
  have hd' := abs_dot_le r1 r2
  rw [goodA, e, mul_pow, Real.sq_sqrt (by linarith)]

/-- The velocities of the solver from `y`, as vectors. -/
theorem goodVelocities_some {mu a y : ℝ} (hmu : 0 < mu) (ha : a ≠ 0) (hy : 0 < y) (r1 r2 : V3) :
    ∃ v1 v2, goodVelocities mu a y r1 r2 = (some v1, some v2) ∧
      (a * Real.sqrt (y / mu)) • v1 = r2 - (1 - y / nrm r1) • r1 ∧
      (a * Real.sqrt (y / mu)) • v2 = (1 - y / nrm r2) • r2 - r1 := by
  have hg : a * Real.sqrt (y / mu) ≠ 0 := mul_ne_zero ha (Real.sqrt_pos.2 (div_pos hy hmu)).ne'
  refine ⟨(1 / (a * Real.sqrt (y / mu))) • (r2 - (1 - y / nrm r1) • r1),
    (1 / (a * Real.sqrt (y / mu))) • ((1 - y / nrm r2) • r2 - r1),
    by simp only [goodVelocities, vdiv, if_neg hg], ?_, ?_⟩ <;>
    rw [smul_smul, mul_one_div_cancel hg, one_smul]

/-- Whatever the solution `y` of the loop, the two velocities have the same angular momentum, along `r1 × r2` for a
positive `a` and against it for a negative one, the same eccentricity vector and the same energy. -/
theorem velocities_conic {mu a y : ℝ} (hmu : 0 < mu) (ha : a ≠ 0) (hy : 0 < y) {r1 r2 : V3}
    (hc : r1 ⨯₃ r2 ≠ 0) (ha2 : a ^ 2 = nrm r1 * nrm r2 + r1 ⬝ᵥ r2) {v1 v2 : V3}
    (h1 : (a * Real.sqrt (y / mu)) • v1 = r2 - (1 - y / nrm r1) • r1)
    (h2 : (a * Real.sqrt (y / mu)) • v2 = (1 - y / nrm r2) • r2 - r1) :
    (a * Real.sqrt (y / mu)) • (r1 ⨯₃ v1) = r1 ⨯₃ r2 ∧ r2 ⨯₃ v2 = r1 ⨯₃ v1 ∧ ecc mu r2 v2 = ecc mu r1 v1 ∧
      energy mu r2 v2 = energy mu r1 v1 := by
  obtain ⟨n1, n2⟩ := nrm_ne_zero_of_cross hc
  set g := a * Real.sqrt (y / mu) with hg
  have hg0 : g ≠ 0 := mul_ne_zero ha (Real.sqrt_pos.2 (div_pos hy hmu)).ne'
  have hg2 : mu * g ^ 2 = (nrm r1 * nrm r2 + r1 ⬝ᵥ r2) * y := by
    rw [hg, mul_pow, Real.sq_sqrt (div_pos hy hmu).le, ha2]; field_simp
  have q1 : r1 ⬝ᵥ r1 = nrm r1 ^ 2 := by rw [← nrm_sq]; ring
  have q2 : r2 ⬝ᵥ r2 = nrm r2 ^ 2 := by rw [← nrm_sq]; ring
  have hP : 0 < nrm r1 * nrm r2 + r1 ⬝ᵥ r2 := by
    have := dot_lt_of_cross hc
    have := neg_abs_le (r1 ⬝ᵥ r2)
    linarith
  clear_value g
  have e1 : v1 = (1 / g) • (r2 - (1 - y / nrm r1) • r1) := by
    rw [← h1, smul_smul, one_div_mul_cancel hg0, one_smul]
  have e2 : v2 = (1 / g) • ((1 - y / nrm r2) • r2 - r1) := by
    rw [← h2, smul_smul, one_div_mul_cancel hg0, one_smul]
  have c1 : r1 ⨯₃ v1 = (1 / g) • (r1 ⨯₃ r2) := by
    rw [e1, map_smul, map_sub, map_smul, cross_self]; simp
  have c2 : r2 ⨯₃ v2 = (1 / g) • (r1 ⨯₃ r2) := by
    rw [e2, map_smul, map_sub, map_smul, cross_self, ← cross_anticomm r2 r1]; simp
  have d := q1
  set d12 := r1 ⬝ᵥ r2 with hd
  refine ⟨?_, by rw [c1, c2], ?_, ?_⟩
  · rw [c1, smul_smul, mul_one_div_cancel hg0, one_smul]
  · have k1 : ecc mu r1 v1 = ((nrm r2 ^ 2 - (1 - y / nrm r1) * d12) / (mu * g ^ 2) - 1 / nrm r1) • r1 +
        (-(d12 - (1 - y / nrm r1) * nrm r1 ^ 2) / (mu * g ^ 2)) • r2 := by
      rw [ecc, c1, e1, ← q1, ← q2, hd]
      refine ext3 ?_ ?_ ?_ <;>
        simp only [Pi.sub_apply, Pi.add_apply, Pi.smul_apply, smul_eq_mul, cross0, cross1, cross2, dot3] <;>
        field_simp <;> ring
    have k2 : ecc mu r2 v2 = (((1 - y / nrm r2) * nrm r2 ^ 2 - d12) / (mu * g ^ 2)) • r1 +
        (-((1 - y / nrm r2) * d12 - nrm r1 ^ 2) / (mu * g ^ 2) - 1 / nrm r2) • r2 := by
      rw [ecc, c2, e2, ← q1, ← q2, hd]
      refine ext3 ?_ ?_ ?_ <;>
        simp only [Pi.sub_apply, Pi.add_apply, Pi.smul_apply, smul_eq_mul, cross0, cross1, cross2, dot3] <;>
        field_simp <;> ring
    rw [k1, k2, hg2]
    obtain ⟨P, hPd⟩ : ∃ P, P = nrm r1 * nrm r2 + d12 := ⟨_, rfl⟩
    have hd' : d12 = P - nrm r1 * nrm r2 := by linarith
    rw [← hPd] at hP
    rw [← hPd, hd']
    congr 2
    · field_simp
      ring
    · field_simp
      ring
  · have k1 : v1 ⬝ᵥ v1 = (nrm r2 ^ 2 - 2 * (1 - y / nrm r1) * d12 + (1 - y / nrm r1) ^ 2 * nrm r1 ^ 2) / g ^ 2 := by
      rw [e1, ← q1, ← q2, hd]
      simp only [Pi.sub_apply, Pi.smul_apply, smul_eq_mul, dot3]
      field_simp
      ring
    have k2 : v2 ⬝ᵥ v2 = ((1 - y / nrm r2) ^ 2 * nrm r2 ^ 2 - 2 * (1 - y / nrm r2) * d12 + nrm r1 ^ 2) / g ^ 2 := by
      rw [e2, ← q1, ← q2, hd]
      simp only [Pi.sub_apply, Pi.smul_apply, smul_eq_mul, dot3]
      field_simp
      ring
    have hg3 : g ^ 2 = (nrm r1 * nrm r2 + d12) * y / mu := by rw [← hg2]; field_simp
    obtain ⟨P, hPd⟩ : ∃ P, P = nrm r1 * nrm r2 + d12 := ⟨_, rfl⟩
    have hd' : d12 = P - nrm r1 * nrm r2 := by linarith
    rw [← hPd] at hP
    rw [energy, energy, k1, k2, hg3, ← hPd, hd']
    field_simp
    ring

/-- The Stumpff functions of index 2 and 3. -/
def IsStumpff (φ c2 c3 : ℝ) : Prop :=
  (0 < φ ∧ c2 = (1 - Real.cos (Real.sqrt φ)) / φ ∧
      c3 = (Real.sqrt φ - Real.sin (Real.sqrt φ)) / Real.sqrt φ ^ 3) ∨
    (φ = 0 ∧ c2 = 1 / 2 ∧ c3 = 1 / 6) ∨
    (φ < 0 ∧ c2 = (1 - Real.cosh (Real.sqrt (-φ))) / φ ∧
      c3 = (Real.sinh (Real.sqrt (-φ)) - Real.sqrt (-φ)) / Real.sqrt (-φ) ^ 3)

/-- The Stumpff functions give the universal functions. -/
theorem IsStumpff.universal {φ c2 c3 : ℝ} (h : IsStumpff φ c2 c3) {X : ℝ} (hX : 0 < X) :
    ∃ u0 u1 u2 u3, Universal (φ / X ^ 2) u0 u1 u2 u3 ∧ u1 X = X * (1 - φ * c3) ∧ u2 X = X ^ 2 * c2 ∧
      u3 X = X ^ 3 * c3 := by
  have hX2 : 0 < X ^ 2 := by positivity
  rcases h with ⟨hφ, h2, h3⟩ | ⟨hφ, h2, h3⟩ | ⟨hφ, h2, h3⟩
  · have hα : 0 < φ / X ^ 2 := by positivity
    refine ⟨_, _, _, _, universal_elliptic hα, ?_⟩
    have hs : Real.sqrt (φ / X ^ 2) * X = Real.sqrt φ := by
      rw [Real.sqrt_div hφ.le, Real.sqrt_sq hX.le]; field_simp
    have hs' : Real.sqrt (φ / X ^ 2) = Real.sqrt φ / X := by rw [← hs]; field_simp
    have hq : Real.sqrt φ ^ 2 = φ := Real.sq_sqrt hφ.le
    have hp : 0 < Real.sqrt φ := Real.sqrt_pos.2 hφ
    simp only [hs, hs', h2, h3]
    generalize Real.sqrt φ = w at *
    subst hq
    refine ⟨?_, ?_, ?_⟩ <;> field_simp
    ring
  · subst hφ
    rw [zero_div]
    refine ⟨_, _, _, _, universal_parabolic, ?_, ?_, ?_⟩
    · simp
    · simp only [h2]; ring
    · simp only [h3]; ring
  · have hα : φ / X ^ 2 < 0 := div_neg_of_neg_of_pos hφ hX2
    refine ⟨_, _, _, _, universal_hyperbolic hα, ?_⟩
    have hn : 0 < -φ := by linarith
    have hs : Real.sqrt (-(φ / X ^ 2)) * X = Real.sqrt (-φ) := by
      rw [← neg_div, Real.sqrt_div hn.le, Real.sqrt_sq hX.le]; field_simp
    have hs' : Real.sqrt (-(φ / X ^ 2)) = Real.sqrt (-φ) / X := by rw [← hs]; field_simp
    have hq : Real.sqrt (-φ) ^ 2 = -φ := Real.sq_sqrt hn.le
    have hp : 0 < Real.sqrt (-φ) := Real.sqrt_pos.2 hn
    simp only [hs, hs', h2, h3]
    generalize Real.sqrt (-φ) = w at *
    have hq' : φ = -w ^ 2 := by linarith
    subst hq'
    refine ⟨?_, ?_, ?_⟩ <;> field_simp
    · ring
    · ring

/-- The relation between the two Stumpff functions. -/
theorem IsStumpff.relation {φ c2 c3 : ℝ} (h : IsStumpff φ c2 c3) : 2 * c2 - (1 - φ * c3) ^ 2 = φ * c2 ^ 2 := by
  obtain ⟨u0, u1, u2, u3, hu, e1, e2, e3⟩ := h.universal one_pos
  have := hu.square 1
  rw [e1, e2] at this
  simp only [one_pow, one_mul, div_one] at this
  linarith

/-- With the exact functions, motion from the first position with the first velocity reaches the second position with
the second velocity in exactly the time that the solver compares with the one asked for. -/
theorem velocities_reach {mu a c2 c3 phi y : ℝ} (hmu : 0 < mu) (ha : a ≠ 0) (hy : 0 < y) (hc2 : 0 < c2) {r1 r2 : V3}
    (hc : r1 ⨯₃ r2 ≠ 0) (ha2 : a ^ 2 = nrm r1 * nrm r2 + r1 ⬝ᵥ r2) (hs : IsStumpff phi c2 c3)
    (hyo : y = yOf a (nrm r1) (nrm r2) phi c2 c3) {v1 v2 : V3}
    (h1 : (a * Real.sqrt (y / mu)) • v1 = r2 - (1 - y / nrm r1) • r1)
    (h2 : (a * Real.sqrt (y / mu)) • v2 = (1 - y / nrm r2) • r2 - r1) :
    Reaches mu r1 v1 r2 v2 (timeOf mu a c2 c3 y) := by
  obtain ⟨n1, n2⟩ := nrm_ne_zero_of_cross hc
  have hX : 0 < Real.sqrt (y / c2) := Real.sqrt_pos.2 (div_pos hy hc2)
  obtain ⟨u0, u1, u2, u3, hu, w1, w2, w3⟩ := hs.universal hX
  have hrel := hs.relation
  have k := velocities_conic hmu ha hy hc ha2 h1 h2
  have hm : 0 < Real.sqrt mu := Real.sqrt_pos.2 hmu
  have hmm : Real.sqrt mu ^ 2 = mu := Real.sq_sqrt hmu.le
  have hk : 0 < Real.sqrt c2 := Real.sqrt_pos.2 hc2
  have hkk : Real.sqrt c2 ^ 2 = c2 := Real.sq_sqrt hc2.le
  have hw : 0 < Real.sqrt y := Real.sqrt_pos.2 hy
  have hww : Real.sqrt y ^ 2 = y := Real.sq_sqrt hy.le
  have hXe : Real.sqrt (y / c2) = Real.sqrt y / Real.sqrt c2 := Real.sqrt_div hy.le c2
  have hge : Real.sqrt (y / mu) = Real.sqrt y / Real.sqrt mu := Real.sqrt_div hy.le mu
  have q1 : r1 ⬝ᵥ r1 = nrm r1 ^ 2 := by rw [← nrm_sq]; ring
  have q2 : r2 ⬝ᵥ r2 = nrm r2 ^ 2 := by rw [← nrm_sq]; ring
  have hu2 : u2 (Real.sqrt (y / c2)) = y := by
    rw [w2, Real.sq_sqrt (div_pos hy hc2).le]; field_simp
  have hg0 : a * Real.sqrt (y / mu) ≠ 0 := mul_ne_zero ha (Real.sqrt_pos.2 (div_pos hy hmu)).ne'
  have hT : timeOf mu a c2 c3 y - u3 (Real.sqrt (y / c2)) / Real.sqrt mu = a * Real.sqrt (y / mu) := by
    rw [timeOf, w3, hge]; field_simp; ring
  have hrv : (a * Real.sqrt (y / mu)) * (r1 ⬝ᵥ v1) = r1 ⬝ᵥ r2 - (1 - y / nrm r1) * nrm r1 ^ 2 := by
    have := congrArg (fun v => r1 ⬝ᵥ v) h1
    simp only [dotProduct_smul, dotProduct_sub, smul_eq_mul] at this
    rw [this, q1]
  have hvv : (a * Real.sqrt (y / mu)) ^ 2 * (v1 ⬝ᵥ v1) =
      nrm r2 ^ 2 - 2 * (1 - y / nrm r1) * (r1 ⬝ᵥ r2) + (1 - y / nrm r1) ^ 2 * nrm r1 ^ 2 := by
    have := congrArg (fun v => v ⬝ᵥ v) h1
    simp only [dotProduct_smul, smul_dotProduct, dotProduct_sub, sub_dotProduct, smul_eq_mul] at this
    rw [q1, q2, dotProduct_comm r2 r1] at this
    linear_combination this
  -- the relation that defines y
  have hyr : a * (1 - phi * c3) = (nrm r1 + nrm r2 - y) * Real.sqrt c2 := by
    rw [yOf] at hyo
    field_simp at hyo
    linear_combination hyo
  refine universal_motion hmu hu (fun e => ?_) ?_ _ hX r2 v2 _ ?_ ?_ ?_ ?_
  · rw [e, smul_zero] at k
    exact hc k.1.symm
  · -- the energy
    rw [Real.sq_sqrt (div_pos hy hc2).le]
    have hg2 : (a * Real.sqrt (y / mu)) ^ 2 = (nrm r1 * nrm r2 + r1 ⬝ᵥ r2) * y / mu := by
      rw [mul_pow, Real.sq_sqrt (div_pos hy hmu).le, ha2]; field_simp
    have hP : 0 < nrm r1 * nrm r2 + r1 ⬝ᵥ r2 := by rw [← ha2]; positivity
    rw [hg2] at hvv
    have hv : v1 ⬝ᵥ v1 = (nrm r2 ^ 2 - 2 * (1 - y / nrm r1) * (r1 ⬝ᵥ r2) + (1 - y / nrm r1) ^ 2 * nrm r1 ^ 2) * mu /
        ((nrm r1 * nrm r2 + r1 ⬝ᵥ r2) * y) := by
      rw [← hvv]; field_simp
    rw [hv]
    have hsq : (nrm r1 * nrm r2 + r1 ⬝ᵥ r2) * (1 - phi * c3) ^ 2 = (nrm r1 + nrm r2 - y) ^ 2 * c2 := by
      rw [← ha2, ← hkk]
      linear_combination (a * (1 - phi * c3) + (nrm r1 + nrm r2 - y) * Real.sqrt c2) * hyr
    set d := r1 ⬝ᵥ r2
    have e2 : (1 - phi * c3) ^ 2 = 2 * c2 - phi * c2 ^ 2 := by linarith
    rw [e2] at hsq
    have e3 : phi * c2 * (nrm r1 * nrm r2 + d) = 2 * (nrm r1 * nrm r2 + d) - (nrm r1 + nrm r2 - y) ^ 2 := by
      have : c2 * (phi * c2 * (nrm r1 * nrm r2 + d)) =
          c2 * (2 * (nrm r1 * nrm r2 + d) - (nrm r1 + nrm r2 - y) ^ 2) := by linear_combination -hsq
      exact mul_left_cancel₀ hc2.ne' this
    have e4 : phi / (y / c2) = (2 * (nrm r1 * nrm r2 + d) - (nrm r1 + nrm r2 - y) ^ 2) /
        ((nrm r1 * nrm r2 + d) * y) := by
      rw [← e3]; field_simp
    rw [e4]
    field_simp
    ring
  · -- the time
    rw [hu2, w1, w3]
    have hrv' : r1 ⬝ᵥ v1 = (r1 ⬝ᵥ r2 - (1 - y / nrm r1) * nrm r1 ^ 2) / (a * (Real.sqrt y / Real.sqrt mu)) := by
      rw [← hrv, hge]; field_simp
    rw [timeOf, hrv', hXe]
    generalize Real.sqrt y = w at *
    generalize Real.sqrt c2 = k' at *
    generalize Real.sqrt mu = m at *
    have e : (1 - phi * c3) = (nrm r1 + nrm r2 - y) * k' / a := by rw [← hyr]; field_simp
    rw [e]
    subst hww
    set d := r1 ⬝ᵥ r2
    field_simp
    have : a ^ 2 = nrm r1 * nrm r2 + d := ha2
    linear_combination (k' ^ 3 * nrm r1 ^ 0) * this
  · rw [hT, h1, hu2]; abel
  · rw [hT, h2, hu2]
  · rw [hT]; exact hg0

end Verif.Lambert
