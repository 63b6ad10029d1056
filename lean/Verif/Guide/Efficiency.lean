import Mathlib.Tactic.Linarith
import Mathlib.Tactic.FieldSimp
import Mathlib.Tactic.Ring
import Mathlib.Tactic.Positivity
import Verif.Guide.Model
/-!
The efficiencies of Ruggiero are between zero and one on every closed orbit, and zero and one are reached.
-/
namespace Verif.Guide
open Verif.Target (Param Objective)

/-- The elements of `s` are those of a closed Keplerian orbit: the vis-viva equation, the equation of the
conic, the relation of the anomalies, and the equinoctial elements. -/
structure Kepler (s : Sat) : Prop where
  e0 : 0 ≤ s.ecc
  e1 : s.ecc < 1
  mu : 0 < s.mu
  sma : 0 < s.sma
  semi : s.semiParam = s.sma * (1 - s.ecc ^ 2)
  conic : s.rmag = s.semiParam / (1 + s.ecc * Real.cos (rad s.ta))
  visViva : s.vmag = Real.sqrt (s.mu * (2 / s.rmag - 1 / s.sma))
  anomaly : Real.cos (rad s.ea) = (s.ecc + Real.cos (rad s.ta)) / (1 + s.ecc * Real.cos (rad s.ta))
  equiH : s.equiH = s.ecc * Real.sin (rad s.aop + rad s.raan)
  equiK : s.equiK = s.ecc * Real.cos (rad s.aop + rad s.raan)

theorem den_pos {e c : ℝ} (h0 : 0 ≤ e) (h1 : e < 1) (hc : -1 ≤ c) : 0 < 1 + e * c := by
  nlinarith [mul_le_mul_of_nonneg_left hc h0]

theorem Kepler.den {s : Sat} (k : Kepler s) : 0 < 1 + s.ecc * Real.cos (rad s.ta) :=
  den_pos k.e0 k.e1 (Real.neg_one_le_cos _)

theorem sma_efficiency {s : Sat} (k : Kepler s) :
    s.vmag * Real.sqrt ((s.sma * (1 - s.ecc)) / (s.mu * (1 + s.ecc))) =
      Real.sqrt (1 + 2 * s.ecc * Real.cos (rad s.ta) + s.ecc ^ 2) / (1 + s.ecc) := by
  have hd := k.den
  have h1 := k.e1
  have h0 := k.e0
  have hp : 0 < 1 + s.ecc := by linarith
  have hm : 0 < 1 - s.ecc := by linarith
  have hm2 : (1 - s.ecc ^ 2) ≠ 0 := by nlinarith
  have hmu := k.mu
  have hsma := k.sma
  have hr : 2 / s.rmag - 1 / s.sma =
      (1 + 2 * s.ecc * Real.cos (rad s.ta) + s.ecc ^ 2) / (s.sma * (1 - s.ecc ^ 2)) := by
    rw [k.conic, k.semi]
    field_simp
    ring
  have hnn : 0 ≤ 1 + 2 * s.ecc * Real.cos (rad s.ta) + s.ecc ^ 2 := by
    have := Real.neg_one_le_cos (rad s.ta)
    nlinarith [mul_le_mul_of_nonneg_left this h0]
  have hsq : (1 + s.ecc) = Real.sqrt ((1 + s.ecc) ^ 2) := (Real.sqrt_sq hp.le).symm
  rw [k.visViva, hr, ← Real.sqrt_mul (mul_nonneg hmu.le (div_nonneg hnn
    (mul_nonneg hsma.le (by nlinarith)))), eq_div_iff hp.ne']
  conv_lhs => rw [hsq]
  rw [← Real.sqrt_mul' _ (by positivity)]
  congr 1
  rw [← hsq]
  have h12 : (1 - s.ecc ^ 2) = (1 - s.ecc) * (1 + s.ecc) := by ring
  rw [h12]
  field_simp

/-- The function of the inclination and of the node: `c`, `d` are the cosine and sine of one angle, `a`, `b`
of the argument of periapsis. -/
theorem plane_efficiency {e c d a b : ℝ} (h0 : 0 ≤ e) (h1 : e < 1) (hcd : c ^ 2 + d ^ 2 = 1)
    (hab : a ^ 2 + b ^ 2 = 1) {n : ℝ} (hn : n = c * a + d * b) :
    0 ≤ |c| * (Real.sqrt (1 - e ^ 2 * b ^ 2) - e * |a|) / (1 + e * n) ∧
    |c| * (Real.sqrt (1 - e ^ 2 * b ^ 2) - e * |a|) / (1 + e * n) ≤ 1 := by
  have hb : b ^ 2 ≤ 1 := by nlinarith [sq_nonneg a]
  have he2 : e ^ 2 < 1 := by nlinarith
  have hS : 0 ≤ 1 - e ^ 2 * b ^ 2 := by nlinarith [sq_nonneg b, sq_nonneg e]
  set S := Real.sqrt (1 - e ^ 2 * b ^ 2) with hSd
  have hS2 : S ^ 2 = 1 - e ^ 2 * b ^ 2 := Real.sq_sqrt hS
  have hS0 : 0 ≤ S := Real.sqrt_nonneg _
  have hna : -1 ≤ n := by rw [hn]; nlinarith [sq_nonneg (c + a), sq_nonneg (d + b)]
  have hd : 0 < 1 + e * n := den_pos h0 h1 hna
  have hge : e * |a| ≤ S := by
    refine Real.le_sqrt_of_sq_le ?_
    rw [mul_pow, sq_abs]
    nlinarith [mul_nonneg (sq_nonneg e) (sq_nonneg b)]
  constructor
  · exact div_nonneg (mul_nonneg (abs_nonneg _) (by linarith)) hd.le
  · rw [div_le_one hd, hn]
    have hcs : S * |c| ≤ 1 + e * b * d := by
      have hx : 0 ≤ 1 + e * b * d := by
        have hbd : -1 ≤ b * d := by nlinarith [sq_nonneg (b + d), sq_nonneg a, sq_nonneg c]
        have := den_pos h0 h1 hbd
        nlinarith
      refine abs_le_of_sq_le_sq' ?_ hx |>.2
      rw [mul_pow, sq_abs, hS2]
      have hc2 : c ^ 2 = 1 - d ^ 2 := by linarith
      rw [hc2]
      nlinarith [sq_nonneg (d + e * b)]
    have hca : -(|c| * (e * |a|)) ≤ e * (c * a) := by
      have : -(|c| * |a|) ≤ c * a := by rw [← abs_mul]; exact neg_abs_le _
      nlinarith [mul_le_mul_of_nonneg_left this h0]
    nlinarith

/-- Property C52. On every closed orbit, the efficiency of each element that Ruggiero controls exists and is
between zero and one. -/
theorem efficiency_range (s : Sat) (k : Kepler s) (p : Param Elem) (hp : supported p = true) :
    ∃ η, efficiency p s = some η ∧ 0 ≤ η ∧ η ≤ 1 := by
  have hd := k.den
  have hc1 := Real.neg_one_le_cos (rad s.ta)
  have hc2 := Real.cos_le_one (rad s.ta)
  have h0 := k.e0
  have h1 := k.e1
  rcases p with _ | _ | _ | e | _ <;> try exact absurd hp Bool.false_ne_true
  cases e <;> try exact absurd hp Bool.false_ne_true
  · refine ⟨_, rfl, ?_⟩
    rw [sma_efficiency k]
    refine ⟨by positivity, ?_⟩
    rw [div_le_one (by linarith)]
    refine Real.sqrt_le_iff.2 ⟨by linarith, ?_⟩
    nlinarith [mul_le_mul_of_nonneg_left hc2 h0]
  · refine ⟨_, rfl, ?_, ?_⟩
    · refine div_nonneg ?_ (by linarith)
      nlinarith [sq_nonneg (Real.cos (rad s.ta) + s.ecc), mul_le_mul_of_nonneg_left hc1 h0]
    · rw [div_le_one (by linarith)]
      nlinarith
  · exact ⟨_, rfl, plane_efficiency h0 h1 (Real.cos_sq_add_sin_sq _) (Real.cos_sq_add_sin_sq _)
      (by rw [show rad s.ta = (rad s.aop + rad s.ta) - rad s.aop by ring, Real.cos_sub]; ring_nf)⟩
  · exact ⟨_, rfl, plane_efficiency h0 h1 (Real.sin_sq_add_cos_sq _) (Real.sin_sq_add_cos_sq _)
      (by rw [show rad s.ta = (rad s.aop + rad s.ta) - rad s.aop by ring, Real.cos_sub]; ring_nf)⟩
  · exact ⟨1, rfl, zero_le_one, le_rfl⟩

/-- The efficiencies are those of a maximum: at periapsis one cannot correct the size or the shape of the
orbit better. -/
theorem efficiency_at_periapsis (s : Sat) (k : Kepler s) (h : s.ta = 0) :
    efficiency (.element .sma) s = some 1 ∧ efficiency (.element .ecc) s = some 1 := by
  have hz : rad s.ta = 0 := by rw [h]; simp [rad]
  have h0 := k.e0
  have hp : (1 + s.ecc) ≠ 0 := by linarith
  constructor
  · show some (s.vmag * Real.sqrt ((s.sma * (1 - s.ecc)) / (s.mu * (1 + s.ecc)))) = _
    rw [sma_efficiency k, hz, Real.cos_zero,
      show 1 + 2 * s.ecc * 1 + s.ecc ^ 2 = (1 + s.ecc) ^ 2 by ring, Real.sqrt_sq (by linarith), div_self hp]
  · show some ((1 + 2 * s.ecc * Real.cos (rad s.ta) + Real.cos (rad s.ta) ^ 2) /
      (2 * (1 + s.ecc * Real.cos (rad s.ta)))) = _
    rw [hz, Real.cos_zero, show 1 + 2 * s.ecc * 1 + 1 ^ 2 = 2 * (1 + s.ecc * 1) by ring,
      div_self (by linarith)]

/-- Away from the nodes and the antinodes, the inclination and the node cannot be corrected at all. -/
theorem efficiency_zero (s : Sat) :
    (Real.cos (rad s.aop + rad s.ta) = 0 → efficiency (.element .inc) s = some 0) ∧
    (Real.sin (rad s.aop + rad s.ta) = 0 → efficiency (.element .raan) s = some 0) := by
  constructor <;> intro h <;> simp [efficiency, h]

/-- A circular orbit, seen at the ascending node. -/
noncomputable def circular : Sat :=
  { mode := .thrust, sma := 4, ecc := 0, inc := 90, raan := 0, aop := 0, ta := 0, ea := 0, mu := 4, vmag := 1
    rmag := 4, semiParam := 4, equiH := 0, equiK := 0, equiP := 0, equiQ := 1, equiLambda := 0
    more := fun _ => none, dcm := 1 }

theorem circular_kepler : Kepler circular where
  e0 := le_rfl
  e1 := by norm_num [circular]
  mu := by norm_num [circular]
  sma := by norm_num [circular]
  semi := by norm_num [circular]
  conic := by norm_num [circular]
  visViva := by
    show (1 : ℝ) = Real.sqrt (4 * (2 / 4 - 1 / 4))
    norm_num
  anomaly := by simp [circular, rad]
  equiH := by simp [circular]
  equiK := by simp [circular]

example := efficiency_range circular circular_kepler (.element .inc) rfl

/-- An eccentric orbit at its apoapsis. -/
noncomputable def eccentric : Sat :=
  { mode := .thrust, sma := 4, ecc := 1 / 2, inc := 90, raan := 0, aop := 0, ta := 180, ea := 180, mu := 12
    vmag := 1, rmag := 6, semiParam := 3, equiH := 0, equiK := 1 / 2, equiP := 0, equiQ := 1
    equiLambda := 0, more := fun _ => none, dcm := 1 }

theorem rad180 : rad 180 = Real.pi := by unfold rad; ring

theorem eccentric_kepler : Kepler eccentric where
  e0 := by norm_num [eccentric]
  e1 := by norm_num [eccentric]
  mu := by norm_num [eccentric]
  sma := by norm_num [eccentric]
  semi := by norm_num [eccentric]
  conic := by norm_num [eccentric, rad180]
  visViva := by
    show (1 : ℝ) = Real.sqrt (12 * (2 / 6 - 1 / 4))
    norm_num
  anomaly := by norm_num [eccentric, rad180]
  equiH := by simp [eccentric, rad]
  equiK := by simp [eccentric, rad]

example := efficiency_range eccentric eccentric_kepler (.element .sma) rfl
example := efficiency_at_periapsis circular circular_kepler rfl

example := (efficiency_zero circular).1

end Verif.Guide
