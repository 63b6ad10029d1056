import Verif.MathU.Model
import Mathlib.Algebra.Order.Floor.Ring
import Mathlib.Tactic.Linarith
import Mathlib.Tactic.FieldSimp
import Mathlib.Tactic.FinCases
/-!
C55: normalisation of angles; spherical coordinates; angles of a direction.
-/
namespace Verif.MathU
open Matrix

/-- The remainder: congruent, smaller than the divisor, of the sign of the dividend. -/
theorem fmod_spec (x y : ℝ) (hy : 0 < y) :
    (∃ k : ℤ, fmod x y = x + k * y) ∧ |fmod x y| < y ∧ (0 ≤ x → 0 ≤ fmod x y) ∧ (x ≤ 0 → fmod x y ≤ 0) := by
  have hxy : x = y * (x / y) := by field_simp
  unfold fmod
  by_cases h : 0 ≤ x / y
  · rw [if_pos h]
    have hx : 0 ≤ x := by rw [hxy]; exact mul_nonneg hy.le h
    have h1 := Int.floor_le (x / y)
    have h2 := Int.lt_floor_add_one (x / y)
    have e : x - y * (⌊x / y⌋ : ℝ) = y * (x / y - ⌊x / y⌋) := by rw [mul_sub, ← hxy]
    refine ⟨⟨-⌊x / y⌋, by push_cast; ring⟩, ?_, ?_, ?_⟩
    · rw [e, abs_of_nonneg (mul_nonneg hy.le (by linarith))]
      nlinarith
    · intro _; rw [e]; exact mul_nonneg hy.le (by linarith)
    · intro hx'
      have : x = 0 := le_antisymm hx' hx
      subst this
      simp
  · rw [if_neg h]
    push Not at h
    have hx : x < 0 := by rw [hxy]; exact mul_neg_of_pos_of_neg hy h
    have h1 := Int.le_ceil (x / y)
    have h2 := Int.ceil_lt_add_one (x / y)
    have e : x - y * (⌈x / y⌉ : ℝ) = y * (x / y - ⌈x / y⌉) := by rw [mul_sub, ← hxy]
    refine ⟨⟨-⌈x / y⌉, by push_cast; ring⟩, ?_, ?_, ?_⟩
    · rw [e, abs_of_nonpos (mul_nonpos_of_nonneg_of_nonpos hy.le (by linarith))]
      nlinarith
    · intro hx'; linarith
    · intro _; rw [e]; exact mul_nonpos_of_nonneg_of_nonpos hy.le (by linarith)

/-- **C55 (0 to 360).** The result is the only number of [0, 360) that differs from the angle by whole turns. -/
theorem between_0_360_spec (a : ℝ) :
    (∃ k : ℤ, between0360 a = a + k * 360) ∧ 0 ≤ between0360 a ∧ between0360 a < 360 ∧
    ∀ b, 0 ≤ b → b < 360 → (∃ k : ℤ, b = a + k * 360) → b = between0360 a := by
  obtain ⟨⟨k, hk⟩, h2, h3, h4⟩ := fmod_spec a 360 (by norm_num)
  obtain ⟨h5, h6⟩ := abs_lt.1 h2
  have hb : (∃ k : ℤ, between0360 a = a + k * 360) ∧ 0 ≤ between0360 a ∧ between0360 a < 360 := by
    unfold between0360
    split
    · next h => exact ⟨⟨k + 1, by rw [hk]; push_cast; ring⟩, by linarith, by linarith⟩
    · next h => exact ⟨⟨k, hk⟩, not_lt.1 h, h6⟩
  refine ⟨hb.1, hb.2.1, hb.2.2, ?_⟩
  intro b b0 b1 ⟨j, hj⟩
  obtain ⟨⟨i, hi⟩, c0, c1⟩ := hb
  have hd : b - between0360 a = ((j - i : ℤ) : ℝ) * 360 := by rw [hj, hi]; push_cast; ring
  have hl : ((j - i : ℤ) : ℝ) < 1 := by by_contra h; push Not at h; linarith
  have hg : (-1 : ℝ) < ((j - i : ℤ) : ℝ) := by by_contra h; push Not at h; linarith
  have : j - i = 0 := by
    have h1 : j - i < 1 := by exact_mod_cast hl
    have h2 : -1 < j - i := by exact_mod_cast hg
    omega
  rw [this] at hd
  simp at hd
  linarith

/-- **C55 (minus x to x), partial.** The result differs from the angle by a multiple of `2 x` and is within
`-x` and `x`; in the open interval it is the only one. Missing: one of the two ends should be excluded, see
`pm_180_not_unique`. -/
theorem between_pm_x_partial (a x : ℝ) (hx : 0 < x) :
    (∃ k : ℤ, betweenPmX a x = a + k * (2 * x)) ∧ -x ≤ betweenPmX a x ∧ betweenPmX a x ≤ x ∧
    ∀ b, -x < b → b < x → (∃ k : ℤ, b = a + k * (2 * x)) → b = betweenPmX a x := by
  obtain ⟨⟨k, hk⟩, h2, h3, h4⟩ := fmod_spec a (2 * x) (by linarith)
  obtain ⟨h5, h6⟩ := abs_lt.1 h2
  have hb : (∃ k : ℤ, betweenPmX a x = a + k * (2 * x)) ∧ -x ≤ betweenPmX a x ∧ betweenPmX a x ≤ x := by
    unfold betweenPmX
    by_cases h : fmod a (2 * x) > x
    · simp only [if_pos h]
      rw [if_neg (by linarith)]
      exact ⟨⟨k - 1, by rw [hk]; push_cast; ring⟩, by linarith, by linarith⟩
    · simp only [if_neg h]
      by_cases h' : fmod a (2 * x) < -x
      · rw [if_pos h']
        exact ⟨⟨k + 1, by rw [hk]; push_cast; ring⟩, by linarith, by linarith⟩
      · rw [if_neg h']
        exact ⟨⟨k, hk⟩, not_lt.1 h', not_lt.1 h⟩
  refine ⟨hb.1, hb.2.1, hb.2.2, ?_⟩
  intro b b0 b1 ⟨j, hj⟩
  obtain ⟨⟨i, hi⟩, c0, c1⟩ := hb
  have hd : b - betweenPmX a x = ((j - i : ℤ) : ℝ) * (2 * x) := by rw [hj, hi]; push_cast; ring
  have hl : ((j - i : ℤ) : ℝ) < 1 := by by_contra h; push Not at h; nlinarith
  have hg : (-1 : ℝ) < ((j - i : ℤ) : ℝ) := by by_contra h; push Not at h; nlinarith
  have : j - i = 0 := by
    have h1 : j - i < 1 := by exact_mod_cast hl
    have h2 : -1 < j - i := by exact_mod_cast hg
    omega
  rw [this] at hd
  simp at hd
  linarith

/-- **C55 refuted (both ends).** The same direction has two results: 180 stays 180 and -180 stays -180, so
the range is neither [-180, 180) nor (-180, 180]. -/
theorem pm_180_not_unique : betweenPm180 180 = 180 ∧ betweenPm180 (-180) = -180 := by
  have h1 : (180 : ℝ) / (2 * 180) = 1 / 2 := by norm_num
  have h2 : (-180 : ℝ) / (2 * 180) = -(1 / 2) := by norm_num
  have f1 : ⌊(1 / 2 : ℝ)⌋ = 0 := by rw [Int.floor_eq_iff]; norm_num
  have f2 : ⌈-(1 / 2 : ℝ)⌉ = 0 := by rw [Int.ceil_eq_iff]; norm_num
  have e1 : fmod 180 (2 * 180) = 180 := by
    unfold fmod
    rw [h1, if_pos (by norm_num), f1]
    norm_num
  have e2 : fmod (-180) (2 * 180) = -180 := by
    unfold fmod
    rw [h2, if_neg (by norm_num), f2]
    norm_num
  unfold betweenPm180 betweenPmX
  rw [e1, e2]
  norm_num

/-! ### Norms, arguments -/

theorem dot_self_nonneg {n : Nat} (v : Fin n → ℝ) : 0 ≤ v ⬝ᵥ v :=
  Finset.sum_nonneg fun i _ => mul_self_nonneg _

theorem nrm_sq {n : Nat} (v : Fin n → ℝ) : nrm v * nrm v = v ⬝ᵥ v := Real.mul_self_sqrt (dot_self_nonneg v)

theorem nrm_nonneg {n : Nat} (v : Fin n → ℝ) : 0 ≤ nrm v := Real.sqrt_nonneg _

theorem dot3 (a b : V3) : a ⬝ᵥ b = a 0 * b 0 + a 1 * b 1 + a 2 * b 2 := by
  simp [dotProduct, Fin.sum_univ_three]

theorem eps_pos : 0 < eps := by unfold eps; positivity

theorem eps_lt : eps < 1 / 3 := by unfold eps; norm_num

theorem norm_mk (x y : ℝ) : ‖(⟨x, y⟩ : ℂ)‖ = Real.sqrt (x * x + y * y) := by
  rw [Complex.norm_def, Complex.normSq_mk]

/-- `atan2` and the sine and cosine. -/
theorem atan2_polar (y x : ℝ) :
    Real.sqrt (x * x + y * y) * Real.cos (atan2 y x) = x ∧
    Real.sqrt (x * x + y * y) * Real.sin (atan2 y x) = y := by
  have h : ‖(⟨x, y⟩ : ℂ)‖ = Real.sqrt (x * x + y * y) := norm_mk x y
  unfold atan2
  rw [← h]
  exact ⟨Complex.norm_mul_cos_arg _, Complex.norm_mul_sin_arg _⟩

theorem atan2_of_polar (r θ : ℝ) (hr : 0 < r) (h1 : -Real.pi < θ) (h2 : θ ≤ Real.pi) :
    atan2 (r * Real.sin θ) (r * Real.cos θ) = θ := by
  unfold atan2
  have : (⟨r * Real.cos θ, r * Real.sin θ⟩ : ℂ) = r * (Complex.cos θ + Complex.sin θ * Complex.I) := by
    apply Complex.ext
    · simp [Complex.cos_ofReal_re, Complex.sin_ofReal_re, Complex.cos_ofReal_im, Complex.sin_ofReal_im]
    · simp [Complex.cos_ofReal_re, Complex.sin_ofReal_re, Complex.cos_ofReal_im, Complex.sin_ofReal_im]
  rw [this]
  exact Complex.arg_mul_cos_add_sin_mul_I hr ⟨h1, h2⟩

/-- **C103 (spherical coordinates).** A vector of norm at least the precision is restored from its spherical
coordinates; a smaller one becomes zero.
Missing from C103: the vectors below the precision, which are not restored (`small_range_zero`). -/
theorem spherical_round_trip_partial (v : V3) :
    toCartesian (toSpherical v).1 (toSpherical v).2.1 (toSpherical v).2.2 = if nrm v < eps then 0 else v := by
  unfold toSpherical
  by_cases h : nrm v < eps
  · simp only [if_pos h, toCartesian]
    rw [if_pos eps_pos]
  · simp only [if_neg h, toCartesian]
    have hpos : 0 < nrm v := lt_of_lt_of_le eps_pos (not_lt.1 h)
    have hsq := nrm_sq v
    rw [dot3] at hsq
    have hz : (v 2 / nrm v) ^ 2 ≤ 1 := by
      rw [div_pow, div_le_one (by positivity)]
      nlinarith [mul_self_nonneg (v 0), mul_self_nonneg (v 1)]
    obtain ⟨hz1, hz2⟩ := abs_le.1 ((sq_le_one_iff_abs_le_one _).1 hz)
    have hs : nrm v * Real.sin (Real.arccos (v 2 / nrm v)) = Real.sqrt (v 0 * v 0 + v 1 * v 1) := by
      rw [Real.sin_arccos]
      have : Real.sqrt (v 0 * v 0 + v 1 * v 1) = Real.sqrt ((nrm v) ^ 2 * (1 - (v 2 / nrm v) ^ 2)) := by
        congr 1
        field_simp
        nlinarith
      rw [this, Real.sqrt_mul (by positivity), Real.sqrt_sq hpos.le]
    obtain ⟨p1, p2⟩ := atan2_polar (v 1) (v 0)
    have hc : nrm v * Real.cos (Real.arccos (v 2 / nrm v)) = v 2 := by
      rw [Real.cos_arccos hz1 hz2]
      field_simp
    rw [hs, p1, p2, hc]
    funext i
    fin_cases i <;> rfl

/-- **C103 (range).** Replacing the range keeps the direction and sets the norm (or gives zero for
a range below the precision): what `set_value` does for `Rmag` and `Vmag`. -/
theorem set_range (v : V3) (hv : eps ≤ nrm v) (ρ : ℝ) (hρ : eps ≤ ρ) :
    toCartesian ρ (toSpherical v).2.1 (toSpherical v).2.2 = (ρ / nrm v) • v ∧
    nrm (toCartesian ρ (toSpherical v).2.1 (toSpherical v).2.2) = ρ := by
  have hpos : 0 < nrm v := lt_of_lt_of_le eps_pos hv
  have h1 : toCartesian ρ (toSpherical v).2.1 (toSpherical v).2.2 = (ρ / nrm v) • v := by
    have h := spherical_round_trip_partial v
    rw [if_neg (not_lt.2 hv)] at h
    have hs : (toSpherical v).1 = nrm v := by unfold toSpherical; rw [if_neg (not_lt.2 hv)]
    rw [hs] at h
    unfold toCartesian at h ⊢
    rw [if_neg (not_lt.2 hv)] at h
    rw [if_neg (not_lt.2 hρ)]
    funext i
    have hi := congrFun h i
    fin_cases i <;> simp only [Pi.smul_apply, smul_eq_mul] <;> rw [← hi] <;> simp <;> field_simp
  refine ⟨h1, ?_⟩
  rw [h1]
  unfold nrm
  have : (ρ / Real.sqrt (v ⬝ᵥ v)) • v ⬝ᵥ (ρ / Real.sqrt (v ⬝ᵥ v)) • v = ρ ^ 2 := by
    rw [smul_dotProduct, dotProduct_smul]
    show ρ / nrm v * (ρ / nrm v * (v ⬝ᵥ v)) = ρ ^ 2
    rw [← nrm_sq v]
    field_simp
  rw [this, Real.sqrt_sq (eps_pos.le.trans hρ)]

/-- **C103 refuted (small ranges).** Writing a range below the precision, or a negative one, gives zero. -/
theorem small_range_zero (θ φ ρ : ℝ) (h : ρ < eps) : toCartesian ρ θ φ = 0 := by
  unfold toCartesian
  rw [if_pos h]

/-- **C104 (right ascension, declination).** The unit vector is restored from its angles. -/
theorem ra_dec_round_trip (v : V3) (hv : v ⬝ᵥ v = 1) : vecOfRaDec (raDecOfVec v).1 (raDecOfVec v).2 = v := by
  rw [dot3] at hv
  have hz : v 2 ^ 2 ≤ 1 := by nlinarith [mul_self_nonneg (v 0), mul_self_nonneg (v 1)]
  obtain ⟨hz1, hz2⟩ := abs_le.1 ((sq_le_one_iff_abs_le_one _).1 hz)
  have hc : Real.cos (Real.arcsin (v 2)) = Real.sqrt (v 0 * v 0 + v 1 * v 1) := by
    rw [Real.cos_arcsin]
    congr 1
    nlinarith
  obtain ⟨p1, p2⟩ := atan2_polar (v 1) (v 0)
  unfold vecOfRaDec raDecOfVec
  simp only
  rw [hc, p1, p2, Real.sin_arcsin hz1 hz2]
  funext i
  fin_cases i <;> rfl

/-- And the angles from the unit vector, away from the poles. -/
theorem ra_dec_of_vec (α δ : ℝ) (h1 : -Real.pi < α) (h2 : α ≤ Real.pi) (h3 : -(Real.pi / 2) < δ)
    (h4 : δ < Real.pi / 2) : raDecOfVec (vecOfRaDec α δ) = (α, δ) := by
  unfold raDecOfVec vecOfRaDec
  have hc : 0 < Real.cos δ := Real.cos_pos_of_mem_Ioo ⟨h3, h4⟩
  have := atan2_of_polar (Real.cos δ) α hc h1 h2
  have h5 := Real.arcsin_sin h3.le h4.le
  simp only [Matrix.cons_val_one, Matrix.cons_val_zero, Matrix.cons_val]
  rw [this, h5]

/-- Both give unit vectors. -/
theorem angle_vectors_unit (α δ : ℝ) :
    vecOfRaDec α δ ⬝ᵥ vecOfRaDec α δ = 1 ∧ vecOfPlane α δ ⬝ᵥ vecOfPlane α δ = 1 := by
  have h1 := Real.sin_sq_add_cos_sq α
  have h2 := Real.sin_sq_add_cos_sq δ
  rw [dot3, dot3]
  simp only [vecOfRaDec, vecOfPlane, Matrix.cons_val_one, Matrix.cons_val_zero, Matrix.cons_val]
  constructor
  · have : Real.cos δ * Real.cos α * (Real.cos δ * Real.cos α) + Real.cos δ * Real.sin α * (Real.cos δ * Real.sin α)
        + Real.sin δ * Real.sin δ = Real.cos δ ^ 2 * (Real.sin α ^ 2 + Real.cos α ^ 2) + Real.sin δ ^ 2 := by ring
    rw [this, h1]
    linarith
  · have : Real.sin α * Real.cos δ * (Real.sin α * Real.cos δ) + Real.cos α * Real.cos δ * (Real.cos α * Real.cos δ)
        + Real.sin δ * Real.sin δ = Real.cos δ ^ 2 * (Real.sin α ^ 2 + Real.cos α ^ 2) + Real.sin δ ^ 2 := by ring
    rw [this, h1]
    linarith

/-- **C104 (in-plane angle), partial.** The in-plane angle read back is the complement to a right angle of the
one given; the out-of-plane angle is right. -/
theorem plane_angles_partial (α β : ℝ) (h1 : -(Real.pi / 2) ≤ α) (h2 : α < Real.pi / 2 * 3)
    (h3 : -(Real.pi / 2) < β) (h4 : β < Real.pi / 2) :
    planeOfVec (vecOfPlane α β) = (Real.pi / 2 - α, β) := by
  unfold planeOfVec vecOfPlane
  have hc : 0 < Real.cos β := Real.cos_pos_of_mem_Ioo ⟨h3, h4⟩
  have := atan2_of_polar (Real.cos β) (Real.pi / 2 - α) hc (by linarith) (by linarith)
  rw [Real.sin_pi_div_two_sub, Real.cos_pi_div_two_sub, mul_comm (Real.cos β), mul_comm (Real.cos β)] at this
  have h5 := Real.arcsin_sin h3.le h4.le
  simp only [Matrix.cons_val_one, Matrix.cons_val_zero, Matrix.cons_val]
  rw [this, h5]

/-- **C104 refuted.** The two functions on plane angles are not inverse of one another: an in-plane angle
of zero is read back as a right angle. -/
theorem plane_angles_not_inverse : planeOfVec (vecOfPlane 0 0) = (Real.pi / 2, 0) := by
  have := plane_angles_partial 0 0 (by linarith [Real.pi_pos]) (by linarith [Real.pi_pos])
    (by linarith [Real.pi_pos]) (by linarith [Real.pi_pos])
  rw [this, sub_zero]

/-! ### Examples -/

example := between_pm_x_partial 725 180 (by norm_num)
example := fmod_spec (-725) 360 (by norm_num)
example : ∃ v : V3, v ⬝ᵥ v = 1 := ⟨![0, 1, 0], by simp⟩
example := ra_dec_round_trip ![0, 1, 0] (by simp)
example := ra_dec_of_vec 1 0 (by linarith [Real.pi_pos]) (by linarith [Real.two_le_pi])
  (by linarith [Real.pi_pos]) (by linarith [Real.pi_pos])
example := plane_angles_partial 1 0 (by linarith [Real.pi_pos]) (by linarith [Real.two_le_pi])
  (by linarith [Real.pi_pos]) (by linarith [Real.pi_pos])
example : eps ≤ nrm ![3, 0, 4] := by
  have : nrm ![3, 0, 4] = 5 := by
    unfold nrm
    rw [show (![3, 0, 4] : V3) ⬝ᵥ ![3, 0, 4] = 5 ^ 2 by simp; norm_num, Real.sqrt_sq (by norm_num)]
  rw [this]
  linarith [eps_lt]

example := small_range_zero 1 2 0 (by unfold eps; norm_num)

example := set_range ![3, 0, 4] (by
  have : nrm ![3, 0, 4] = 5 := by
    unfold nrm
    rw [show (![3, 0, 4] : V3) ⬝ᵥ ![3, 0, 4] = 5 ^ 2 by simp; norm_num, Real.sqrt_sq (by norm_num)]
  rw [this]
  linarith [eps_lt]) 7 (by linarith [eps_lt])

end Verif.MathU
