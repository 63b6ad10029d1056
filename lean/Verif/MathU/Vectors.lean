import Verif.MathU.Angles
import Mathlib.LinearAlgebra.Matrix.Determinant.Basic
import Mathlib.LinearAlgebra.Matrix.DotProduct
import Mathlib.LinearAlgebra.Matrix.ToLinearEquiv
import Mathlib.Tactic.LinearCombination
/-!
C56: rotations, projections and the cross product matrix. C105: the pseudo inverse. Small functions of utils.rs.
-/
namespace Verif.MathU
open Matrix

theorem ext3 {a b : V3} (h0 : a 0 = b 0) (h1 : a 1 = b 1) (h2 : a 2 = b 2) : a = b := by
  funext i
  fin_cases i
  · exact h0
  · exact h1
  · exact h2

theorem cross0 (a b : V3) : (a ⨯₃ b) 0 = a 1 * b 2 - a 2 * b 1 := by simp [cross_apply]
theorem cross1 (a b : V3) : (a ⨯₃ b) 1 = a 2 * b 0 - a 0 * b 2 := by simp [cross_apply]
theorem cross2 (a b : V3) : (a ⨯₃ b) 2 = a 0 * b 1 - a 1 * b 0 := by simp [cross_apply]

theorem mulVec3 (M : Matrix (Fin 3) (Fin 3) ℝ) (w : V3) (i : Fin 3) :
    (M *ᵥ w) i = M i 0 * w 0 + M i 1 * w 1 + M i 2 * w 2 := dot3 _ _

/-- **C56 (cross product).** -/
theorem tilde_cross (v w : V3) : tildeMatrix v *ᵥ w = v ⨯₃ w ∧ (tildeMatrix v)ᵀ = -tildeMatrix v := by
  constructor
  · apply ext3
    · rw [cross0, mulVec3]; simp [tildeMatrix]; ring
    · rw [cross1, mulVec3]; simp [tildeMatrix]; ring
    · rw [cross2, mulVec3]; simp [tildeMatrix]; ring
  · ext i j
    fin_cases i <;> fin_cases j <;> simp [tildeMatrix]

/-- What a rotation matrix must satisfy. -/
def IsRotation (R : Matrix (Fin 3) (Fin 3) ℝ) : Prop := R * Rᵀ = 1 ∧ Rᵀ * R = 1 ∧ R.det = 1

/-- **C56 (elementary rotations).** For every angle the three matrices are rotations, fix their axis, and
compose by adding the angles (thus the opposite angle is the transpose). -/
theorem elementary_rotations (R : ℝ → Matrix (Fin 3) (Fin 3) ℝ) (k : Fin 3)
    (hR : (R = r1 ∧ k = 0) ∨ (R = r2 ∧ k = 1) ∨ (R = r3 ∧ k = 2)) (a b : ℝ) :
    IsRotation (R a) ∧ R a * R b = R (a + b) ∧ R (-a) = (R a)ᵀ ∧ R a *ᵥ (Pi.single k 1) = Pi.single k 1 := by
  have hs := Real.sin_sq_add_cos_sq a
  have h1 : Real.cos a * Real.cos a + Real.sin a * Real.sin a = 1 := by linarith
  have h2 : Real.sin a * Real.sin a + Real.cos a * Real.cos a = 1 := by linarith
  rcases hR with ⟨rfl, rfl⟩ | ⟨rfl, rfl⟩ | ⟨rfl, rfl⟩
  all_goals
    refine ⟨⟨?_, ?_, ?_⟩, ?_, ?_, ?_⟩
    · ext i j
      fin_cases i <;> fin_cases j <;> simp [r1, r2, r3, Matrix.mul_apply, Fin.sum_univ_three] <;> linarith
    · ext i j
      fin_cases i <;> fin_cases j <;> simp [r1, r2, r3, Matrix.mul_apply, Fin.sum_univ_three] <;> linarith
    · rw [det_fin_three]
      simp [r1, r2, r3]
      linarith
    · ext i j
      fin_cases i <;> fin_cases j <;>
        simp [r1, r2, r3, Matrix.mul_apply, Fin.sum_univ_three, Real.cos_add, Real.sin_add] <;> ring
    · ext i j
      fin_cases i <;> fin_cases j <;> simp [r1, r2, r3]
    · apply ext3 <;> simp [r1, r2, r3, mulVec, dot3]

theorem nrm_pos {n : Nat} (v : Fin n → ℝ) (hv : v ≠ 0) : 0 < nrm v := by
  apply Real.sqrt_pos.2
  refine lt_of_le_of_ne (dot_self_nonneg v) fun h => hv ?_
  exact dotProduct_self_eq_zero.1 h.symm

theorem normalizeV_unit (v : V3) (hv : v ≠ 0) : normalizeV v ⬝ᵥ normalizeV v = 1 := by
  have h := nrm_pos v hv
  unfold normalizeV
  rw [smul_dotProduct, dotProduct_smul, ← nrm_sq v]
  simp only [smul_eq_mul]
  field_simp

/-- **C56 (rotation about an axis).** For every axis that is not zero: the scalar products (thus the norms and
the angles) are kept, the axis is fixed, the angles add, and the rotation about the x, y and z axes is that of
`r1`, `r2`, `r3` with the opposite angle. -/
theorem rotv_spec (axis : V3) (hk : axis ≠ 0) (v w : V3) (a b : ℝ) :
    rotv v axis a ⬝ᵥ rotv w axis a = v ⬝ᵥ w ∧ rotv axis axis a = axis ∧
    rotv (rotv v axis a) axis b = rotv v axis (a + b) ∧ rotv v axis 0 = v := by
  have hu := normalizeV_unit axis hk
  have hax : axis = nrm axis • normalizeV axis := by
    unfold normalizeV
    rw [smul_smul, mul_one_div_cancel (nrm_pos axis hk).ne', one_smul]
  unfold rotv
  generalize normalizeV axis = k at hu hax
  have hs := Real.sin_sq_add_cos_sq a
  rw [dot3] at hu
  refine ⟨?_, ?_, ?_, ?_⟩
  · simp only [dot3, Pi.add_apply, Pi.smul_apply, smul_eq_mul, cross0, cross1, cross2]
    have hs' : Real.sin a ^ 2 = 1 - Real.cos a ^ 2 := by linarith
    generalize Real.cos a = c at hs'
    generalize Real.sin a = s at hs'
    have h0 : k 0 * k 0 = 1 - k 1 * k 1 - k 2 * k 2 := by linarith
    linear_combination (exp := 1)
      (((k 1 * v 2 - k 2 * v 1) * (k 1 * w 2 - k 2 * w 1) + (k 2 * v 0 - k 0 * v 2) * (k 2 * w 0 - k 0 * w 2)
        + (k 0 * v 1 - k 1 * v 0) * (k 0 * w 1 - k 1 * w 0))) * hs' +
      ((k 0 * v 0 + k 1 * v 1 + k 2 * v 2) * (k 0 * w 0 + k 1 * w 1 + k 2 * w 2) * (1 - c) ^ 2
        + (1 - c ^ 2) * (v 0 * w 0 + v 1 * w 1 + v 2 * w 2)) * hu
  · rw [hax]
    generalize nrm axis = n
    apply ext3 <;>
      simp only [dot3, Pi.add_apply, Pi.smul_apply, smul_eq_mul, cross0, cross1, cross2]
    · linear_combination (n * (1 - Real.cos a) * k 0) * hu
    · linear_combination (n * (1 - Real.cos a) * k 1) * hu
    · linear_combination (n * (1 - Real.cos a) * k 2) * hu
  · rw [Real.cos_add, Real.sin_add]
    generalize Real.cos a = c
    generalize Real.sin a = s
    generalize Real.cos b = c'
    generalize Real.sin b = s'
    apply ext3 <;>
      simp only [dot3, Pi.add_apply, Pi.smul_apply, smul_eq_mul, cross0, cross1, cross2]
    · linear_combination ((k 0 * v 0 + k 1 * v 1 + k 2 * v 2) * (1 - c') * (1 - c) * k 0 - s * s' * v 0) * hu
    · linear_combination ((k 0 * v 0 + k 1 * v 1 + k 2 * v 2) * (1 - c') * (1 - c) * k 1 - s * s' * v 1) * hu
    · linear_combination ((k 0 * v 0 + k 1 * v 1 + k 2 * v 2) * (1 - c') * (1 - c) * k 2 - s * s' * v 2) * hu
  · simp

theorem normalizeV_of_unit (k : V3) (hk : k ⬝ᵥ k = 1) : normalizeV k = k := by
  unfold normalizeV nrm
  rw [hk, Real.sqrt_one, div_one, one_smul]

/-- `r1`, `r2`, `r3` rotate the axes: applied to a vector they rotate it by the opposite angle. -/
theorem elementary_are_rotv (v : V3) (a : ℝ) :
    r1 a *ᵥ v = rotv v ![1, 0, 0] (-a) ∧ r2 a *ᵥ v = rotv v ![0, 1, 0] (-a) ∧
    r3 a *ᵥ v = rotv v ![0, 0, 1] (-a) := by
  have e1 : normalizeV ![1, 0, 0] = ![1, 0, 0] := normalizeV_of_unit _ (by simp)
  have e2 : normalizeV ![0, 1, 0] = ![0, 1, 0] := normalizeV_of_unit _ (by simp)
  have e3 : normalizeV ![0, 0, 1] = ![0, 0, 1] := normalizeV_of_unit _ (by simp)
  refine ⟨?_, ?_, ?_⟩
  · unfold rotv
    rw [e1]
    apply ext3 <;> rw [mulVec3] <;>
      simp only [dot3, Pi.add_apply, Pi.smul_apply, smul_eq_mul, cross0, cross1, cross2, Real.cos_neg,
        Real.sin_neg] <;> simp [r1] <;> try ring
  · unfold rotv
    rw [e2]
    apply ext3 <;> rw [mulVec3] <;>
      simp only [dot3, Pi.add_apply, Pi.smul_apply, smul_eq_mul, cross0, cross1, cross2, Real.cos_neg,
        Real.sin_neg] <;> simp [r2] <;> try ring
  · unfold rotv
    rw [e3]
    apply ext3 <;> rw [mulVec3] <;>
      simp only [dot3, Pi.add_apply, Pi.smul_apply, smul_eq_mul, cross0, cross1, cross2, Real.cos_neg,
        Real.sin_neg] <;> simp [r3] <;> try ring

/-! ### Projections -/

theorem amax_nonneg (v : V3) : 0 ≤ amax v := le_max_of_le_right (abs_nonneg _)

theorem sq_le_amax (v : V3) (i : Fin 3) : v i * v i ≤ amax v * amax v := by
  have h : |v i| ≤ amax v := by
    unfold amax
    fin_cases i
    · exact le_max_of_le_left (le_max_left _ _)
    · exact le_max_of_le_left (le_max_right _ _)
    · exact le_max_right _ _
  rw [← abs_mul_abs_self]
  exact mul_self_le_mul_self (abs_nonneg _) h

theorem amax_sq_le (v : V3) : amax v * amax v ≤ v ⬝ᵥ v := by
  rw [dot3]
  have hi : ∃ i : Fin 3, amax v = |v i| := by
    unfold amax
    rcases max_choice (max |v 0| |v 1|) |v 2| with h | h
    · rcases max_choice |v 0| |v 1| with h' | h'
      · exact ⟨0, by rw [h, h']⟩
      · exact ⟨1, by rw [h, h']⟩
    · exact ⟨2, h⟩
  obtain ⟨i, hi⟩ := hi
  rw [hi, abs_mul_abs_self]
  have h0 := mul_self_nonneg (v 0)
  have h1 := mul_self_nonneg (v 1)
  have h2 := mul_self_nonneg (v 2)
  fin_cases i <;> simp <;> linarith

/-- **C56 (projections), partial.** For vectors that are not tiny, the two parts sum to the vector, the first is
along `b` and the second is orthogonal to `b`. Missing: `b` with a squared norm below the precision, see
`projection_lost`. -/
theorem projections_partial (a b : V3) (ha : eps ≤ amax a) (hb : eps ≤ b ⬝ᵥ b) :
    projv a b + perpv a b = a ∧ (∃ t : ℝ, projv a b = t • b) ∧ perpv a b ⬝ᵥ b = 0 := by
  have hbb : 0 < b ⬝ᵥ b := lt_of_lt_of_le eps_pos hb
  have hA : 0 < amax a := lt_of_lt_of_le eps_pos ha
  have h3 : b ⬝ᵥ b ≤ 3 * (amax b * amax b) := by
    rw [dot3]
    have h0 := sq_le_amax b 0
    have h1 := sq_le_amax b 1
    have h2 := sq_le_amax b 2
    linarith
  have hB : 0 < amax b := by
    rcases (amax_nonneg b).lt_or_eq with h | h
    · exact h
    · rw [← h] at h3
      linarith
  have hBe : ¬ amax b < eps := by
    intro hlt
    have : amax b * amax b < eps * eps := mul_self_lt_mul_self hB.le hlt
    have : eps * eps < eps * (1 / 3) := mul_lt_mul_of_pos_left eps_lt eps_pos
    linarith
  have hp : projv a b = (a ⬝ᵥ b / (b ⬝ᵥ b)) • b := by
    unfold projv
    rw [if_neg (by rw [abs_of_pos hbb]; exact not_lt.2 hb)]
  have hs : ((1 / amax b) • b) ⬝ᵥ ((1 / amax b) • b) = (b ⬝ᵥ b) / (amax b * amax b) := by
    rw [smul_dotProduct, dotProduct_smul]
    simp only [smul_eq_mul]
    field_simp
  have hs1 : 1 ≤ ((1 / amax b) • b) ⬝ᵥ ((1 / amax b) • b) := by
    rw [hs, le_div_iff₀ (mul_pos hB hB), one_mul]
    exact amax_sq_le b
  have hq : perpv a b = a - (a ⬝ᵥ b / (b ⬝ᵥ b)) • b := by
    unfold perpv
    rw [if_neg (not_lt.2 ha), if_neg hBe]
    unfold projv
    rw [if_neg (by rw [abs_of_pos (by linarith)]; linarith [eps_lt]), hs]
    rw [smul_dotProduct, dotProduct_smul, smul_sub, smul_smul, smul_smul, smul_smul,
      mul_one_div_cancel hA.ne', one_smul]
    congr 2
    simp only [smul_eq_mul]
    field_simp
  refine ⟨?_, ⟨_, hp⟩, ?_⟩
  · rw [hp, hq]
    abel
  · rw [hq, sub_dotProduct, smul_dotProduct, smul_eq_mul, div_mul_cancel₀ _ hbb.ne', sub_self]

/-- **C56 refuted (small vectors).** For a small `b` the projection is zero while the orthogonal part is still
computed: the two parts of `a = b` do not sum to `a`. -/
theorem projection_lost : ∃ a b : V3, projv a b + perpv a b ≠ a ∧ eps ≤ amax a ∧ eps ≤ amax b := by
  have hv : amax ![1 / 2 ^ 30, 0, 0] = 1 / 2 ^ 30 := by
    simp [amax]
  have he : eps ≤ 1 / 2 ^ 30 := by unfold eps; norm_num
  refine ⟨![1 / 2 ^ 30, 0, 0], ![1 / 2 ^ 30, 0, 0], ?_, by rw [hv]; exact he, by rw [hv]; exact he⟩
  have hp : projv ![1 / 2 ^ 30, 0, 0] ![1 / 2 ^ 30, 0, 0] = 0 := by
    unfold projv
    rw [if_pos]
    rw [dot3]
    simp [eps]
    norm_num
  have hq : perpv ![1 / 2 ^ 30, 0, 0] ![1 / 2 ^ 30, 0, 0] = 0 := by
    unfold perpv
    rw [hv, if_neg (not_lt.2 he), if_neg (not_lt.2 he)]
    have : (1 / (1 / 2 ^ 30) : ℝ) • (![1 / 2 ^ 30, 0, 0] : V3) = ![1, 0, 0] := by
      apply ext3 <;> simp
    rw [this]
    unfold projv
    have : (![1, 0, 0] : V3) ⬝ᵥ ![1, 0, 0] = 1 := by simp
    rw [this, if_neg (by rw [abs_one]; linarith [eps_lt])]
    simp
  rw [hp, hq]
  intro h
  have := congrFun h 0
  simp at this
  norm_num at this

/-! ### C105 -/

theorem tryInverse_some {n : Nat} (m B : Matrix (Fin n) (Fin n) ℝ) (h : tryInverse m = some B) :
    B = m⁻¹ ∧ IsUnit m.det := by
  unfold tryInverse at h
  split at h
  · cases h
  · next hd => exact ⟨(Option.some.inj h).symm, isUnit_iff_ne_zero.2 hd⟩

/-- **C105 (fewer rows).** With fewer equations than unknowns the result is a right inverse, and the
solution it gives is the one of least norm. -/
theorem pseudo_inverse_wide {m n : Nat} (A : Matrix (Fin m) (Fin n) ℝ) (hmn : m < n)
    (B : Matrix (Fin n) (Fin m) ℝ) (h : pseudoInverse A = some B) (y : Fin m → ℝ) :
    A *ᵥ (B *ᵥ y) = y ∧ ∀ x, A *ᵥ x = y → (B *ᵥ y) ⬝ᵥ (B *ᵥ y) ≤ x ⬝ᵥ x := by
  unfold pseudoInverse at h
  rw [if_pos hmn, Option.map_eq_some_iff] at h
  obtain ⟨C, hC, rfl⟩ := h
  obtain ⟨rfl, hu⟩ := tryInverse_some _ _ hC
  have h1 : A *ᵥ ((Aᵀ * (A * Aᵀ)⁻¹) *ᵥ y) = y := by
    rw [mulVec_mulVec, ← Matrix.mul_assoc, mul_nonsing_inv _ hu, one_mulVec]
  refine ⟨h1, ?_⟩
  intro x hx
  set z := (Aᵀ * (A * Aᵀ)⁻¹) *ᵥ y with hz
  have horth : z ⬝ᵥ (x - z) = 0 := by
    have h2 : A *ᵥ (x - z) = 0 := by rw [mulVec_sub, hx, h1, sub_self]
    have h3 : z = ((A * Aᵀ)⁻¹ *ᵥ y) ᵥ* A := by rw [hz, ← mulVec_mulVec, mulVec_transpose]
    rw [h3, ← dotProduct_mulVec, ← h3, h2, dotProduct_zero]
  have : x ⬝ᵥ x = z ⬝ᵥ z + (x - z) ⬝ᵥ (x - z) := by
    have e : x = z + (x - z) := by abel
    have : (z + (x - z)) ⬝ᵥ (z + (x - z)) = z ⬝ᵥ z + (x - z) ⬝ᵥ (x - z) := by
      rw [add_dotProduct, dotProduct_add, dotProduct_add, horth, dotProduct_comm (x - z) z, horth]
      ring
    rw [← this, ← e]
  rw [this]
  linarith [dot_self_nonneg (x - z)]

/-- **C105 (as many rows or more).** With at least as many equations as unknowns the result is a left inverse,
and the solution it gives has the least residual. -/
theorem pseudo_inverse_tall {m n : Nat} (A : Matrix (Fin m) (Fin n) ℝ) (hmn : n ≤ m)
    (B : Matrix (Fin n) (Fin m) ℝ) (h : pseudoInverse A = some B) (y : Fin m → ℝ) :
    B * A = 1 ∧ ∀ x, (y - A *ᵥ (B *ᵥ y)) ⬝ᵥ (y - A *ᵥ (B *ᵥ y)) ≤ (y - A *ᵥ x) ⬝ᵥ (y - A *ᵥ x) := by
  unfold pseudoInverse at h
  rw [if_neg (by omega), Option.map_eq_some_iff] at h
  obtain ⟨C, hC, rfl⟩ := h
  obtain ⟨rfl, hu⟩ := tryInverse_some _ _ hC
  have h1 : (Aᵀ * A)⁻¹ * Aᵀ * A = 1 := by rw [Matrix.mul_assoc, nonsing_inv_mul _ hu]
  refine ⟨h1, ?_⟩
  intro x
  set z := ((Aᵀ * A)⁻¹ * Aᵀ) *ᵥ y with hz
  have hn : Aᵀ *ᵥ (y - A *ᵥ z) = 0 := by
    rw [mulVec_sub, hz, mulVec_mulVec, mulVec_mulVec]
    have : Aᵀ * A * ((Aᵀ * A)⁻¹ * Aᵀ) = Aᵀ := by
      rw [← Matrix.mul_assoc, mul_nonsing_inv _ hu, Matrix.one_mul]
    rw [this, sub_self]
  set r := y - A *ᵥ z with hr
  have he : y - A *ᵥ x = r + A *ᵥ (z - x) := by
    rw [hr, mulVec_sub]
    abel
  have horth : r ⬝ᵥ (A *ᵥ (z - x)) = 0 := by
    rw [dotProduct_mulVec, ← mulVec_transpose, hn, zero_dotProduct]
  rw [he, add_dotProduct, dotProduct_add, dotProduct_add, horth, dotProduct_comm (A *ᵥ (z - x)) r, horth]
  linarith [dot_self_nonneg (A *ᵥ (z - x))]

/-- **C105 (error).** The pseudo inverse fails exactly if the rows (fewer rows) or the columns are linearly
dependent: some combination other than zero vanishes. -/
theorem pseudo_inverse_fails {m n : Nat} (A : Matrix (Fin m) (Fin n) ℝ) :
    pseudoInverse A = none ↔
      if m < n then ∃ y, y ≠ 0 ∧ Aᵀ *ᵥ y = 0 else ∃ x, x ≠ 0 ∧ A *ᵥ x = 0 := by
  have key : ∀ {k l : Nat} (M : Matrix (Fin k) (Fin l) ℝ),
      (Mᵀ * M).det = 0 ↔ ∃ x, x ≠ 0 ∧ M *ᵥ x = 0 := by
    intro k l M
    rw [← Matrix.exists_mulVec_eq_zero_iff]
    constructor
    · rintro ⟨x, hx, h⟩
      refine ⟨x, hx, ?_⟩
      have : (M *ᵥ x) ⬝ᵥ (M *ᵥ x) = 0 := by
        rw [dotProduct_mulVec, ← mulVec_transpose, mulVec_mulVec, h, zero_dotProduct]
      exact dotProduct_self_eq_zero.1 this
    · rintro ⟨x, hx, h⟩
      exact ⟨x, hx, by rw [← mulVec_mulVec, h, mulVec_zero]⟩
  unfold pseudoInverse
  by_cases hmn : m < n
  · rw [if_pos hmn, if_pos hmn, Option.map_eq_none_iff]
    have := key Aᵀ
    rw [transpose_transpose] at this
    rw [← this]
    unfold tryInverse
    split <;> simp_all
  · rw [if_neg hmn, if_neg hmn, Option.map_eq_none_iff, ← key A]
    unfold tryInverse
    split <;> simp_all

/-! ### C106: the other functions -/

/-- `normalize` and `denormalize` are inverse, and map the ends to -1 and 1. -/
theorem normalize_inverse (x lo hi : ℝ) (h : lo < hi) :
    denormalize (normalize x lo hi) lo hi = x ∧ normalize (denormalize x lo hi) lo hi = x ∧
    normalize lo lo hi = -1 ∧ normalize hi lo hi = 1 ∧
    ((lo ≤ x ∧ x ≤ hi) ↔ (-1 ≤ normalize x lo hi ∧ normalize x lo hi ≤ 1)) := by
  have hd : (0 : ℝ) < hi - lo := by linarith
  refine ⟨?_, ?_, ?_, ?_, ?_⟩
  · unfold denormalize normalize
    field_simp
    ring
  · unfold denormalize normalize
    field_simp
    ring
  · unfold normalize
    simp
  · unfold normalize
    field_simp
    ring
  · unfold normalize
    rw [neg_le_sub_iff_le_add, sub_le_iff_le_add]
    constructor
    · rintro ⟨h1, h2⟩
      constructor
      · have : 0 ≤ 2 * (x - lo) / (hi - lo) := div_nonneg (by linarith) hd.le
        linarith
      · rw [div_le_iff₀ hd]
        linarith
    · rintro ⟨h1, h2⟩
      rw [div_le_iff₀ hd] at h2
      have : 0 ≤ 2 * (x - lo) / (hi - lo) := by linarith
      have := (le_div_iff₀ hd).1 this
      constructor <;> linarith

/-- `is_diagonal`: exactly when every off-diagonal component is at most the precision. -/
theorem is_diagonal_iff (m : Matrix (Fin 3) (Fin 3) ℝ) :
    isDiagonal m = true ↔ ∀ i j, i ≠ j → |m i j| ≤ eps := by
  unfold isDiagonal
  simp only [List.all_eq_true, List.mem_finRange, true_implies, Bool.not_eq_true', Bool.and_eq_false_iff,
    decide_eq_false_iff_not, gt_iff_lt, not_lt, ne_eq, not_not]
  constructor
  · intro h i j hij
    rcases h i j with h | h
    · exact absurd h hij
    · exact h
  · intro h i j
    by_cases hij : i = j
    · exact Or.inl hij
    · exact Or.inr (h i j hij)

/-- `mag_order`: the power of ten below the absolute value. -/
theorem mag_order_spec (x : ℝ) (hx : x ≠ 0) :
    (10 : ℝ) ^ (magOrder x) ≤ |x| ∧ |x| < (10 : ℝ) ^ (magOrder x + 1) := by
  have h0 : 0 < |x| := abs_pos.2 hx
  have h1 := Int.floor_le (Real.logb 10 |x|)
  have h2 := Int.lt_floor_add_one (Real.logb 10 |x|)
  unfold magOrder
  constructor
  · rw [Real.le_logb_iff_rpow_le (by norm_num) h0, Real.rpow_intCast] at h1
    exact h1
  · have h3 : Real.logb 10 |x| < ((⌊Real.logb 10 |x|⌋ + 1 : ℤ) : ℝ) := by push_cast; exact h2
    rw [Real.logb_lt_iff_lt_rpow (by norm_num) h0, Real.rpow_intCast] at h3
    exact h3

/-- `unitize`: a unit vector along the vector, unless the norm is below the precision. -/
theorem unitize_spec (v : V3) :
    (eps ≤ nrm v → nrm (unitize v) = 1 ∧ ∃ t : ℝ, 0 < t ∧ unitize v = t • v) ∧ (nrm v < eps → unitize v = v) := by
  constructor
  · intro h
    have hp : 0 < nrm v := lt_of_lt_of_le eps_pos h
    have hv : v ≠ 0 := by
      rintro rfl
      simp [nrm] at hp
    have hu : unitize v = normalizeV v := by
      unfold unitize normalizeV
      rw [if_neg (not_lt.2 h)]
    refine ⟨?_, 1 / nrm v, by positivity, by rw [hu]; rfl⟩
    rw [hu]
    unfold nrm
    rw [normalizeV_unit v hv, Real.sqrt_one]
  · intro h
    unfold unitize
    rw [if_pos h]

/-- `rss_errors` is a distance: zero iff equal, symmetric, and the norm of the difference. -/
theorem rss_errors_spec {n : Nat} (a b : Fin n → ℝ) :
    rssErrors a b = nrm (a - b) ∧ rssErrors a b = rssErrors b a ∧ (rssErrors a b = 0 ↔ a = b) := by
  have h : rssErrors a b = nrm (a - b) := by
    unfold rssErrors nrm
    congr 1
    simp [dotProduct, sq]
  refine ⟨h, ?_, ?_⟩
  · unfold rssErrors
    congr 1
    exact Finset.sum_congr rfl fun i _ => by ring
  · rw [h]
    unfold nrm
    rw [Real.sqrt_eq_zero (dot_self_nonneg _), dotProduct_self_eq_zero, sub_eq_zero]

/-! ### Examples -/

example := elementary_rotations r2 1 (Or.inr (Or.inl ⟨rfl, rfl⟩)) 1 2
example := rotv_spec ![1, 2, 2] (by intro h; simpa using congrFun h 0) ![1, 0, 0] ![0, 1, 0] 1 2
example := projections_partial ![1, 2, 3] ![0, 1, 0] (eps_lt.le.trans (le_trans (by show (1 / 3 : ℝ) ≤ |(3 : ℝ)|; norm_num) (le_max_right _ _)))
  (by simp; linarith [eps_lt])
example : pseudoInverse (!![1, 0; 0, 1] : Matrix (Fin 2) (Fin 2) ℝ) ≠ none := by
  rw [ne_eq, pseudo_inverse_fails]
  simp only [lt_self_iff_false, if_false]
  rintro ⟨x, hx, h⟩
  apply hx
  have h0 := congrFun h 0
  have h1 := congrFun h 1
  simp [mulVec, dotProduct, Fin.sum_univ_two] at h0 h1
  funext i
  fin_cases i
  · exact h0
  · exact h1
example : pseudoInverse (!![1, 2] : Matrix (Fin 1) (Fin 2) ℝ) ≠ none := by
  rw [ne_eq, pseudo_inverse_fails]
  simp only [Nat.one_lt_ofNat, if_true]
  rintro ⟨x, hx, h⟩
  apply hx
  have h0 := congrFun h 0
  simp [mulVec, dotProduct] at h0
  funext i
  fin_cases i
  exact h0
example := normalize_inverse 3 1 5 (by norm_num)
example := mag_order_spec (-5000) (by norm_num)

end Verif.MathU
