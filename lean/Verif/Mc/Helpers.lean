import Verif.Mc.Model
import Verif.MathU.Vectors
/-!
C117: the random directions and the execution errors of maneuvers (mc/helpers.rs).
-/
namespace Verif.Mc
open Matrix

/-- **C117 (random direction).** The direction is a unit vector, and every height is reached linearly: its third
component is `2 v - 1` (which is what makes the points uniform on the sphere). -/
theorem unit_from_seed (u v : ℝ) (h0 : 0 ≤ v) (h1 : v ≤ 1) :
    unitFromSeed u v 0 ^ 2 + unitFromSeed u v 1 ^ 2 + unitFromSeed u v 2 ^ 2 = 1 ∧
    unitFromSeed u v 2 = 2 * v - 1 := by
  constructor
  · simp only [unitFromSeed, Matrix.cons_val]
    have a := Real.sin_sq_add_cos_sq (2 * Real.pi * u)
    have b := Real.sin_sq_add_cos_sq (Real.arccos (2 * v - 1))
    linear_combination (Real.sin (Real.arccos (2 * v - 1)) ^ 2) * a + b
  · simp only [unitFromSeed, Matrix.cons_val]
    exact Real.cos_arccos (by linarith) (by linarith)

theorem pointing_ok (draw : ℝ → ℝ → ℝ) (cur dv d : Fin 3 → ℝ) (err : ℝ)
    (h : pointingError draw cur dv err = some d) :
    0 ≤ err ∧ err < 1 ∧ MathU.eps ≤ MathU.nrm dv ∧
    d = Real.cos (draw (Real.arccos ((cur ⬝ᵥ ((1 / MathU.nrm dv) • dv)) / MathU.nrm cur)) (err / 3)) • dv := by
  unfold pointingError at h
  split at h
  · cases h
  next h1 =>
  split at h
  · cases h
  next h2 =>
  push Not at h1 h2
  have he : 0 < MathU.nrm dv := lt_of_lt_of_le (by unfold MathU.eps; positivity) h2
  have h1' : 0 ≤ err ∧ err < 1 := by
    by_contra hn
    exact absurd hn (by simpa using h1)
  refine ⟨h1'.1, h1'.2, h2, ?_⟩
  rw [← Option.some.inj h, smul_comm, smul_smul, smul_smul]
  congr 1
  field_simp

/-- **C117 refuted (pointing error).** The maneuver with a pointing error always stays on the line of the
maneuver commanded: the direction never changes (but by its sign). What changes is the size, multiplied by
the cosine of an angle; it never increases. -/
theorem pointing_error_never_turns (draw : ℝ → ℝ → ℝ) (cur dv d : Fin 3 → ℝ) (err : ℝ)
    (h : pointingError draw cur dv err = some d) :
    ∃ k : ℝ, -1 ≤ k ∧ k ≤ 1 ∧ d = k • dv := by
  obtain ⟨-, -, -, hd⟩ := pointing_ok draw cur dv d err h
  exact ⟨_, Real.neg_one_le_cos _, Real.cos_le_one _, hd⟩

/-- **C117 refuted (no error).** Without any error (the value drawn is its mean), a maneuver in a direction other
than the current one is not executed as commanded: it is multiplied by the cosine of the angle between the two. -/
theorem no_error_shrinks (cur dv : Fin 3 → ℝ) (hc : MathU.nrm cur ≠ 0) (hd : MathU.eps ≤ MathU.nrm dv)
    (hle : |cur ⬝ᵥ dv| ≤ MathU.nrm cur * MathU.nrm dv) :
    pointingError (fun m _ => m) cur dv 0 = some ((cur ⬝ᵥ dv / (MathU.nrm cur * MathU.nrm dv)) • dv) := by
  have he : 0 < MathU.nrm dv := lt_of_lt_of_le (by unfold MathU.eps; positivity) hd
  have hcp : 0 < MathU.nrm cur := lt_of_le_of_ne (Real.sqrt_nonneg _) (Ne.symm hc)
  unfold pointingError
  rw [if_neg (by norm_num), if_neg (not_lt.2 hd)]
  simp only
  have e : (cur ⬝ᵥ ((1 / MathU.nrm dv) • dv)) / MathU.nrm cur =
      cur ⬝ᵥ dv / (MathU.nrm cur * MathU.nrm dv) := by
    rw [dotProduct_smul, smul_eq_mul]
    field_simp
  have hp : 0 < MathU.nrm cur * MathU.nrm dv := mul_pos hcp he
  have hb := abs_le.1 hle
  rw [e, Real.cos_arccos, smul_comm, smul_smul (MathU.nrm dv)]
  · congr 1
    rw [mul_one_div_cancel he.ne', one_smul]
  · rw [le_div_iff₀ hp]; linarith [hb.1]
  · rw [div_le_one hp]; exact hb.2

/-- **C117 (errors).** A pointing error is refused exactly outside of [0, 1) or for a maneuver below the precision. -/
theorem pointing_error_refused (draw : ℝ → ℝ → ℝ) (cur dv : Fin 3 → ℝ) (err : ℝ) :
    pointingError draw cur dv err = none ↔ err < 0 ∨ 1 ≤ err ∨ MathU.nrm dv < MathU.eps := by
  unfold pointingError
  by_cases h0 : 0 ≤ err <;> by_cases h1 : err < 1 <;> by_cases h2 : MathU.nrm dv < MathU.eps <;>
    simp [h0, h1, h2, not_le.1, not_lt.1, -not_lt, -not_le]
  all_goals first | exact not_lt.2 h0 | exact Or.inl (not_le.1 h0) | exact Or.inr (not_lt.1 h1) | skip
  all_goals constructor <;> first | exact not_lt.2 h0 | exact not_le.2 h1

/-- **C117 (execution error).** The maneuver with both errors has exactly the size drawn (its absolute value) if
the pointing error did not cancel it, and stays on the line of the maneuver commanded.
Missing: the pointing error, which does not turn the maneuver (`pointing_error_never_turns`). -/
theorem execution_error_size_partial (draw draw2 : ℝ → ℝ → ℝ) (cur dv r : Fin 3 → ℝ) (p m : ℝ)
    (h : executionError draw draw2 cur dv p m = some r) :
    (∃ k : ℝ, r = k • dv) ∧
    ∃ d, pointingError draw cur dv p = some d ∧
      (MathU.nrm d ≠ 0 → MathU.nrm r = |draw2 (MathU.nrm d) (m / 3)|) := by
  unfold executionError at h
  obtain ⟨d, hd, rfl⟩ := Option.map_eq_some_iff.1 h
  obtain ⟨k, -, -, hk⟩ := pointing_error_never_turns draw cur dv d p hd
  refine ⟨⟨draw2 (MathU.nrm d) (m / 3) * (1 / MathU.nrm d) * k, ?_⟩, d, hd, fun hne => ?_⟩
  · nth_rewrite 3 [hk]
    rw [smul_smul, smul_smul]
  · have hpos : 0 < MathU.nrm d := lt_of_le_of_ne (Real.sqrt_nonneg _) (Ne.symm hne)
    have key : ∀ (a : ℝ) (w : Fin 3 → ℝ), MathU.nrm (a • w) = |a| * MathU.nrm w := by
      intro a w
      unfold MathU.nrm
      rw [smul_dotProduct, dotProduct_smul, smul_eq_mul, smul_eq_mul, ← mul_assoc,
        Real.sqrt_mul (mul_self_nonneg a), Real.sqrt_mul_self_eq_abs]
    rw [key, key, abs_of_pos (one_div_pos.2 hpos), one_div_mul_cancel hne, mul_one]

/-! ### Examples -/

theorem nrm_x (a : ℝ) (ha : 0 ≤ a) : MathU.nrm ![a, 0, 0] = a := by
  unfold MathU.nrm
  simp [Matrix.vec3_dotProduct, Real.sqrt_mul_self ha]

theorem nrm_y (a : ℝ) (ha : 0 ≤ a) : MathU.nrm ![0, a, 0] = a := by
  unfold MathU.nrm
  simp [Matrix.vec3_dotProduct, Real.sqrt_mul_self ha]

/-- A maneuver orthogonal to the current direction is executed as nothing, without any error drawn. -/
example : pointingError (fun m _ => m) ![1, 0, 0] ![0, 2, 0] 0 = some ((0 : ℝ) • ![0, 2, 0]) := by
  have := no_error_shrinks ![1, 0, 0] ![0, 2, 0] (by rw [nrm_x 1 zero_le_one]; norm_num)
    (by rw [nrm_y 2 zero_le_two]; unfold MathU.eps; norm_num)
    (by rw [nrm_x 1 zero_le_one, nrm_y 2 zero_le_two]; simp [Matrix.vec3_dotProduct])
  rw [this]
  simp [Matrix.vec3_dotProduct]

example : ∃ d, pointingError (fun m s => m + s) ![1, 0, 0] ![0, 2, 0] (1 / 2) = some d := by
  rw [← Option.ne_none_iff_exists', ne_eq, pointing_error_refused, nrm_y 2 zero_le_two]
  unfold MathU.eps
  norm_num

example : ∃ d, executionError (fun m s => m + s) (fun m s => m - s) ![1, 0, 0] ![0, 2, 0] (1 / 2) 1 = some d := by
  unfold executionError
  have : pointingError (fun m s => m + s) ![1, 0, 0] ![0, 2, 0] (1 / 2) ≠ none := by
    rw [ne_eq, pointing_error_refused, nrm_y 2 zero_le_two]
    unfold MathU.eps
    norm_num
  obtain ⟨d, hd⟩ := Option.ne_none_iff_exists'.1 this
  rw [hd]
  exact ⟨_, rfl⟩

example := unit_from_seed 3 (1 / 4) (by norm_num) (by norm_num)

example : ∃ (k : ℝ) (v : Fin 3 → ℝ), executionError (fun m s => m + s) (fun m s => m - s) ![1, 0, 0] ![0, 2, 0] (1 / 2) 1 = some v ∧ v = k • ![0, 2, 0] := by
  have : pointingError (fun m s => m + s) ![1, 0, 0] ![0, 2, 0] (1 / 2) ≠ none := by
    rw [ne_eq, pointing_error_refused, nrm_y 2 zero_le_two]
    unfold MathU.eps
    norm_num
  obtain ⟨d, hd⟩ := Option.ne_none_iff_exists'.1 this
  have h : ∃ v, executionError (fun m s => m + s) (fun m s => m - s) ![1, 0, 0] ![0, 2, 0] (1 / 2) 1 = some v := by
    unfold executionError
    rw [hd]
    exact ⟨_, rfl⟩
  obtain ⟨v, hv⟩ := h
  obtain ⟨⟨k, hk⟩, -⟩ := execution_error_size_partial _ _ _ _ _ _ _ hv
  exact ⟨k, v, hv, hk⟩

end Verif.Mc
