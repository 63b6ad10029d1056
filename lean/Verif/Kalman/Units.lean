import Verif.Kalman.Info
/-!
Theorems on the Kalman filter: C31 (the units of the measurements do not matter) and C32 (forced
rejection).
-/
namespace Verif.Kalman
open Matrix
set_option linter.unusedSectionVars false

variable {F Ω : Type} {s a m : Nat} {chol : Chol}
variable {dcm : F → Ω → Option (Matrix (Fin 3) (Fin 3) ℝ)}

/-- The same measurement in other units: all quantities transformed by `T`. -/
def MsrIn.scale (T : Matrix (Fin m) (Fin m) ℝ) (z : MsrIn s m) : MsrIn s m :=
  { real := T *ᵥ z.real, computed := T *ᵥ z.computed, R := T * z.R * Tᵀ, H := T * z.H }

theorem scale_innovation (T : Matrix (Fin m) (Fin m) ℝ) (z : MsrIn s m)
    (P : Matrix (Fin s) (Fin s) ℝ) :
    (z.scale T).H * (P * (z.scale T).Hᵀ) + (z.scale T).R = T * (z.H * (P * z.Hᵀ) + z.R) * Tᵀ := by
  simp only [MsrIn.scale, transpose_mul, Matrix.mul_add, Matrix.add_mul, Matrix.mul_assoc]

theorem joseph_congr {m' : Nat} {P : Matrix (Fin s) (Fin s) ℝ} {H : Matrix (Fin m) (Fin s) ℝ}
    {R : Matrix (Fin m) (Fin m) ℝ} {K : Matrix (Fin s) (Fin m) ℝ} {H' : Matrix (Fin m') (Fin s) ℝ}
    {R' : Matrix (Fin m') (Fin m') ℝ} {K' : Matrix (Fin s) (Fin m') ℝ}
    (h1 : K * H = K' * H') (h2 : K * R * Kᵀ = K' * R' * K'ᵀ) :
    joseph P H R K = joseph P H' R' K' := by
  unfold joseph
  simp only
  rw [h1, h2]

/-- **C31, units.** Transforming the measurement by any invertible matrix `T` (for instance a change
of units) gives the same filter, estimate, ratio and decision; the residuals and gain are
transformed. -/
theorem units_invariance (hc : CholSpec chol) (kf kf' : KF F Ω s a) (x : Nominal Ω s) (z : MsrIn s m)
    (t : Option ℝ) (e : Est Ω s) (r : Resid m) (g : Option (Matrix (Fin s) (Fin m) ℝ)) (hm : 0 < m)
    (T : Matrix (Fin m) (Fin m) ℝ) (hT : T.det ≠ 0)
    (hP : SymPsd kf.prev.covar) (hq : ∀ q ∈ kf.noises, ∀ i, 0 ≤ q.diag i) (hR : SymPsd z.R)
    (h : kf.measurementUpdate chol dcm x z t = .ok (kf', e, r, g)) :
    ∃ (r' : Resid m) (g' : Option (Matrix (Fin s) (Fin m) ℝ)),
      kf.measurementUpdate chol dcm x (z.scale T) t = .ok (kf', e, r', g') ∧
      r'.ratio = r.ratio ∧ r'.rejected = r.rejected ∧ r'.prefit = T *ᵥ r.prefit ∧
      r'.postfit = r.postfit.map (T *ᵥ ·) ∧ g' = g.map (· * T⁻¹) := by
  have hTu : IsUnit T.det := isUnit_iff_ne_zero.2 hT
  have hTtu : IsUnit (Tᵀ).det := by rw [det_transpose]; exact hTu
  obtain ⟨stm, pu, L, h1, h2, h3, h4, h5, h6, h7, h8, h9, h10, hcase⟩ := measurementUpdate_ok h
  have hRp := (symPsd_iff _).1 hR
  have hR' : SymPsd (z.scale T).R := (symPsd_iff _).2 (posSemidef_conj hRp T)
  have hSd := (singular_innovation hc kf x z t stm pu hP hq hR h1 h2).1 ⟨_, h⟩
  have hSd' : ((z.scale T).H * (pu.1 * (z.scale T).Hᵀ) + (z.scale T).R).PosDef := by
    rw [scale_innovation]
    have := (IsUnit.posDef_star_right_conjugate_iff (U := T)
      ((isUnit_iff_isUnit_det T).2 hTu)).2 hSd
    rwa [star_eq_conjTranspose, conjTranspose_eq_transpose_of_trivial] at this
  obtain ⟨⟨kf2, e2, r2, g2⟩, hok⟩ :=
    (singular_innovation hc kf x (z.scale T) t stm pu hP hq hR' h1 h2).2 hSd'
  obtain ⟨stm', pu', L', i1, i2, i3, i4, i5, i6, i7, i8, i9, i10, hcase'⟩ := measurementUpdate_ok hok
  rw [h1] at i1; cases i1
  rw [h2] at i2; cases i2
  have hSinv : T⁻¹ * T = 1 := nonsing_inv_mul _ hTu
  have hpre : (z.scale T).real - (z.scale T).computed = T *ᵥ (z.real - z.computed) := by
    simp only [MsrIn.scale, mulVec_sub]
  have hSi : ((z.scale T).H * (pu.1 * (z.scale T).Hᵀ) + (z.scale T).R)⁻¹ =
      (Tᵀ)⁻¹ * (z.H * (pu.1 * z.Hᵀ) + z.R)⁻¹ * T⁻¹ := by
    rw [scale_innovation, Matrix.mul_inv_rev, Matrix.mul_inv_rev, Matrix.mul_assoc]
  -- same ratio
  have hbar : ∀ {z : MsrIn s m} {kf' e r g}, SymPsd z.R →
      kf.measurementUpdate chol dcm x z t = .ok (kf', e, r, g) → e.covarBar = pu.1 := by
    intro z kf' e r g _ h
    obtain ⟨stm', pu', L', i1, i2, _, _, _, _, _, _, _, _, hcase'⟩ := measurementUpdate_ok h
    rw [h1] at i1; cases i1
    rw [h2] at i2; cases i2
    rcases hcase' with ⟨_, _, _, g4⟩ | ⟨_, K, _, _, g5, _⟩
    · obtain ⟨stm', pu', k1, k2, _, k4⟩ := timeUpdate_ok g4
      rw [h1] at k1; cases k1
      rw [h2] at k2; cases k2
      rw [k4]
    · rw [g5]
  have hratio : r2.ratio = r.ratio := by
    obtain ⟨a1, a2⟩ := ratio_mahalanobis hc kf kf' x z t e r g hm hP hq hR h
    obtain ⟨b1, b2⟩ := ratio_mahalanobis hc kf kf2 x (z.scale T) t e2 r2 g2 hm hP hq hR' hok
    rw [hbar hR h, Matrix.mul_assoc] at a2
    rw [hbar hR' hok, Matrix.mul_assoc, hSi, hpre] at b2
    have hq' : ∀ w : Fin m → ℝ, (T *ᵥ w) ⬝ᵥ (((Tᵀ)⁻¹ * (z.H * (pu.1 * z.Hᵀ) + z.R)⁻¹ * T⁻¹) *ᵥ (T *ᵥ w))
        = w ⬝ᵥ ((z.H * (pu.1 * z.Hᵀ) + z.R)⁻¹ *ᵥ w) := by
      intro w
      rw [mulVec_mulVec, Matrix.mul_assoc, hSinv, Matrix.mul_one]
      rw [dotProduct_comm, dotProduct_mulVec, ← mulVec_transpose, mulVec_mulVec, ← Matrix.mul_assoc,
        mul_nonsing_inv _ hTtu, Matrix.one_mul, dotProduct_comm]
    rw [hq'] at b2
    have hm' : (0 : ℝ) < m := by exact_mod_cast hm
    have : r2.ratio ^ 2 = r.ratio ^ 2 := by
      apply mul_right_cancel₀ hm'.ne'
      rw [a2, b2]
    exact (sq_eq_sq₀ b1 a1).1 this
  have hrej : r2.rejected = r.rejected := by
    rw [Bool.eq_iff_iff, h10, i10, hratio]
  refine ⟨r2, g2, ?_, hratio, hrej, by rw [i5, h5, hpre], ?_⟩
  · rw [hok]
    rcases hcase with ⟨a1, a2, a3, a4⟩ | ⟨a1, K, a2, a3, a4, a5, a6⟩
    · rcases hcase' with ⟨b1, b2, b3, b4⟩ | ⟨b1, _⟩
      · rw [a4] at b4; cases b4; rfl
      · rw [hrej, a1] at b1; cases b1
    · rcases hcase' with ⟨b1, _⟩ | ⟨b1, K', b2, b3, b4, b5, b6⟩
      · rw [hrej, a1] at b1; cases b1
      · have hK := (gainOf_eq hc hSd.posSemidef a3).2
        have hK' := (gainOf_eq hc hSd'.posSemidef b3).2
        have hKT : K' * T = K := by
          rw [hK', hSi, hK]
          simp only [MsrIn.scale, transpose_mul, Matrix.mul_assoc]
          rw [hSinv, Matrix.mul_one, ← Matrix.mul_assoc Tᵀ, mul_nonsing_inv _ hTtu, Matrix.one_mul]
        have hcov : joseph pu.1 (z.scale T).H (z.scale T).R K' = joseph pu.1 z.H z.R K := by
          refine joseph_congr ?_ ?_
          · rw [← hKT]; simp only [MsrIn.scale, Matrix.mul_assoc]
          · rw [← hKT]; simp only [MsrIn.scale, transpose_mul, Matrix.mul_assoc]
        have hdev : (devPost kf.variant stm kf.prev.dev K' (z.scale T).H
            ((z.scale T).real - (z.scale T).computed)).1 =
            (devPost kf.variant stm kf.prev.dev K z.H (z.real - z.computed)).1 := by
          rw [hpre]
          cases kf.variant
          · simp only [devPost]
            rw [mulVec_mulVec, hKT]
          · simp only [devPost, MsrIn.scale]
            rw [← mulVec_mulVec, ← mulVec_sub, mulVec_mulVec, hKT]
        have he : e2 = e := by rw [b4, a4, hcov, hdev]
        rw [b6, a6, he]
  · rcases hcase with ⟨a1, a2, a3, a4⟩ | ⟨a1, K, a2, a3, a4, a5, a6⟩
    · rcases hcase' with ⟨b1, b2, b3, b4⟩ | ⟨b1, _⟩
      · rw [a2, a3, b2, b3]; exact ⟨rfl, rfl⟩
      · rw [hrej, a1] at b1; cases b1
    · rcases hcase' with ⟨b1, _⟩ | ⟨b1, K', b2, b3, b4, b5, b6⟩
      · rw [hrej, a1] at b1; cases b1
      · have hK := (gainOf_eq hc hSd.posSemidef a3).2
        have hK' := (gainOf_eq hc hSd'.posSemidef b3).2
        have hKT : K' * T = K := by
          rw [hK', hSi, hK]
          simp only [MsrIn.scale, transpose_mul, Matrix.mul_assoc]
          rw [hSinv, Matrix.mul_one, ← Matrix.mul_assoc Tᵀ, mul_nonsing_inv _ hTtu, Matrix.one_mul]
        constructor
        · rw [b5, a5, hpre]
          cases kf.variant
          · simp only [devPost, Option.map_some, MsrIn.scale]
            congr 1
            simp only [mulVec_sub, mulVec_mulVec, ← hKT, Matrix.mul_assoc]
          · simp only [devPost, Option.map_some, MsrIn.scale]
            congr 1
            simp only [mulVec_sub, mulVec_mulVec, Matrix.mul_assoc]
        · rw [b2, a2]
          simp only [Option.map_some]
          rw [← hKT, Matrix.mul_assoc, mul_nonsing_inv _ hTu, Matrix.mul_one]

/-- The hypotheses are met by the filter of the examples, with the measurement in metres instead of
kilometres. -/
example (v : Variant) (y : ℝ) : ∃ kf' e r g,
    (exKf v).measurementUpdate someChol (fun _ _ => none) exX (exZ y) (some 3) = .ok (kf', e, r, g) ∧
    ((1000 : ℝ) • (1 : Matrix (Fin 1) (Fin 1) ℝ)).det ≠ 0 := by
  obtain ⟨⟨kf', e, r, g⟩, h⟩ := exOk v y (some 3)
  exact ⟨kf', e, r, g, h, by simp⟩

/-! ### C32 -/

/-- **C32, partial.** With the threshold zero, which is how an arc is processed with `force_reject`, a
measurement with a non zero prefit residual leaves exactly the time update. What is missing:
measurements with zero prefit, see `force_reject_accepts_exact`. -/
theorem force_reject_partial (hc : CholSpec chol) (kf kf' : KF F Ω s a) (x : Nominal Ω s)
    (z : MsrIn s m) (e : Est Ω s) (r : Resid m) (g : Option (Matrix (Fin s) (Fin m) ℝ))
    (hP : SymPsd kf.prev.covar) (hq : ∀ q ∈ kf.noises, ∀ i, 0 ≤ q.diag i) (hR : SymPsd z.R)
    (hy : z.real ≠ z.computed)
    (h : kf.measurementUpdate chol dcm x z (some 0) = .ok (kf', e, r, g)) :
    r.rejected = true ∧ kf.timeUpdate dcm x = .ok (kf', e) := by
  obtain ⟨h1, h2, _⟩ := rejected_is_time_update kf kf' x z _ e r g h
  have hy' : z.real - z.computed ≠ 0 := sub_ne_zero.2 hy
  have hm : 0 < m := by
    rcases Nat.eq_zero_or_pos m with rfl | hm
    · exact absurd (Subsingleton.elim _ _) hy
    · exact hm
  obtain ⟨a1, a2⟩ := ratio_mahalanobis hc kf kf' x z _ e r g hm hP hq hR h
  have hSd : (z.H * e.covarBar * z.Hᵀ + z.R).PosDef := by
    obtain ⟨stm, pu, L, k1, k2, _, _, _, _, _, _, _, _, hcase⟩ := measurementUpdate_ok h
    have hSd := (singular_innovation hc kf x z _ stm pu hP hq hR k1 k2).1 ⟨_, h⟩
    have hbar : e.covarBar = pu.1 := by
      rcases hcase with ⟨_, _, _, g4⟩ | ⟨_, K, _, _, g5, _⟩
      · obtain ⟨stm', pu', l1, l2, _, l4⟩ := timeUpdate_ok g4
        rw [k1] at l1; cases l1
        rw [k2] at l2; cases l2
        rw [l4]
      · rw [g5]
    rw [hbar, Matrix.mul_assoc]
    exact hSd
  have hpos := hSd.inv.dotProduct_mulVec_pos hy'
  simp only [star_trivial] at hpos
  have hr : 0 < r.ratio := by
    rcases a1.lt_or_eq with h | h
    · exact h
    · rw [← h] at a2
      simp only [ne_eq, OfNat.ofNat_ne_zero, not_false_eq_true, zero_pow, zero_mul] at a2
      rw [← a2] at hpos
      exact absurd hpos (lt_irrefl _)
  have hrej := h1.2 ⟨0, rfl, hr⟩
  exact ⟨hrej, (h2 hrej).1⟩

/-- **C32 is false of the code.** In the example filter, a measurement with zero prefit is accepted
with the threshold zero and the covariance is not that of the time update. -/
theorem force_reject_accepts_exact (v : Variant) :
    ∃ kf' e r g, (exKf v).measurementUpdate someChol (fun _ _ => none) exX (exZ 0) (some 0) =
        .ok (kf', e, r, g) ∧ r.rejected = false ∧ e.covar 0 0 = 1 / 2 ∧
      ∀ kb eb, (exKf v).timeUpdate (fun _ _ => none) exX = .ok (kb, eb) → eb.covar 0 0 = 1 := by
  obtain ⟨⟨kf', e, r, g⟩, h⟩ := exOk v 0 (some 0)
  obtain ⟨stm, pu, L, k1, k2, _, _, _, _, _, k8, k9, k10, hcase⟩ := measurementUpdate_ok h
  have hs : stm = 1 := by simp only [exX] at k1; exact (Option.some.inj k1).symm
  subst hs
  rw [exPredict] at k2
  injection k2 with k2
  have hrej : r.rejected = false := by
    by_contra hne
    rw [Bool.not_eq_false] at hne
    obtain ⟨n, hn, hlt⟩ := k10.1 hne
    cases hn
    rw [k9, k8] at hlt
    have : (exZ 0).real - (exZ 0).computed = 0 := by
      funext i; simp [exZ]
    rw [this, mulVec_zero] at hlt
    simp [ratioOf] at hlt
  refine ⟨kf', e, r, g, h, hrej, ?_, ?_⟩
  · rcases hcase with ⟨a1, _⟩ | ⟨_, K, a2, a3, a4, _, _⟩
    · rw [hrej] at a1; cases a1
    · subst a2
      obtain ⟨b1, _, _⟩ := gain_optimal someChol_spec _ _ _ _ _ _ _ _ exSymPsd (by simp [exKf])
        exSymPsd h
      have hS := innovation_psd (P := pu.1) (R := (exZ 0).R)
        (by rw [← k2]; exact PosSemidef.one) PosSemidef.one (exZ 0).H
      have hK := (gainOf_eq someChol_spec hS a3).2
      have hb : e.covarBar = 1 := by rw [a4]; rw [← k2]
      rw [b1, hb, hK, ← k2]
      simp only [exZ, Matrix.one_mul, Matrix.mul_one, transpose_one]
      have h2 : (1 + 1 : Matrix (Fin 1) (Fin 1) ℝ) = (2 : ℝ) • 1 := by
        rw [two_smul]
      have h3 : ((2 : ℝ) • (1 : Matrix (Fin 1) (Fin 1) ℝ))⁻¹ = (1 / 2 : ℝ) • 1 := by
        apply inv_eq_left_inv
        rw [smul_mul_smul_comm, Matrix.one_mul]
        norm_num
      rw [h2, h3]
      simp
      norm_num
  · intro kb eb hb
    obtain ⟨stm, pu', l1, l2, _, l4⟩ := timeUpdate_ok hb
    have hs : stm = 1 := by simp only [exX] at l1; exact (Option.some.inj l1).symm
    subst hs
    rw [exPredict] at l2
    injection l2 with l2
    rw [l4, ← l2]
    rfl

end Verif.Kalman
